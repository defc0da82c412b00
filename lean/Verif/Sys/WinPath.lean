import Verif.Sys.Dir
import Verif.Str.Utf8

/-!
# Folders and full names on Windows (code/source/core/file.c:27-53, file_misc.c:27-84, 151-191, 298-341, 467-478)  -  C164

The Windows branches of `zpl_fs_copy`, `zpl_fs_move`, `zpl_fs_remove`, `zpl_fs_last_write_time`, `zpl_path_get_full_name`, `zpl_path_dirlist` and `zpl_path_fix_slashes`.  What the system does - converting between UTF-8 and UTF-16, completing a path, finding the
entries of a folder - is given by functions and by the tree of `Verif.Sys.Dir`.  Simplifications: names are given as the UTF-8 text the code makes of them (that conversion is C28 and C161); the
listing is made at one moment; allocation succeeds. -/

namespace Zpl.WinPath

open Zpl.Str
open Zpl.Dir (Name Node Out newline dot dotdot skipped skipped_ok preorder inside unlines_append)

abbrev Unit16 := BitVec 16

/-! ## Model -/

/-- The functions of Windows: `toWide` is `MultiByteToWideChar` (`none` for 0: ill-formed), `full` is `GetFullPathNameW` on a name, `toUtf8` is `WideCharToMultiByte` on some units. -/
structure Windows where
  toWide : List Byte → Option (List Unit16)
  full : List Unit16 → Option (List Unit16)
  toUtf8 : List Unit16 → Option (List Byte)

/-- A block that was allocated with `n` cells, with `xs` written from its start. -/
def fillFrom {α : Type} (n : Nat) (xs : List α) : Except Fault (List (Option α)) :=
  if xs.length ≤ n then .ok (xs.map some ++ List.replicate (n - xs.length) none) else .error .oob

/-- file.c:27-53 `zpl__alloc_utf8_to_ucs2` on a C string: `none` is NULL, otherwise the block and the length.  `live` counts the blocks of the heap. -/
def allocUcs2 (w : Windows) (text : List Byte) (live : Nat) : Except Fault (Option (List (Option Unit16) × Nat) × Nat) := do
  let len ← strlen text
  if len = 0 then .ok (none, live)
  else match w.toWide (text.take len) with
    | none => .ok (none, live)
    | some u =>
      if u.length = 0 then .ok (none, live)
      else do
        let block ← fillFrom (u.length + 1) u
        let block ← wr block u.length (some 0)
        .ok (some (block, u.length), live + 1)

/-- The units before the first 0 of a block, as the functions of Windows read a text: a cell never written is `ub`. -/
def wideText : List (Option Unit16) → Except Fault (List Unit16)
  | [] => .error .oob
  | none :: _ => .error .ub
  | some u :: us => if u = 0 then .ok [] else do .ok (u :: (← wideText us))

/-- The first `n` units of a block. -/
def units : Nat → List (Option Unit16) → Except Fault (List Unit16)
  | 0, _ => .ok []
  | _ + 1, [] => .error .oob
  | _ + 1, none :: _ => .error .ub
  | n + 1, some u :: us => do .ok (u :: (← units n us))

/-- file_misc.c:151-191 `zpl_path_get_full_name`: `none` is NULL, otherwise the block of the result; and the number of blocks.  `GetFullPathNameW` without a buffer returns the number of units it needs,
the 0 at the end among them. -/
def fullName (w : Windows) (path : List Byte) (live : Nat) : Except Fault (Option (List (Option Byte)) × Nat) := do
  let (r, live) ← allocUcs2 w path live
  match r with
  | none => .ok (none, live)
  | some (wpath, _) => do
    let name ← wideText wpath
    match w.full name with
    | none => .ok (none, live)
    | some f => do
      let wlen := f.length + 1
      let full ← fillFrom (wlen + 1) (f ++ [0])
      let live := live + 1
      let full ← wr full wlen (some 0)
      let live := live - 1
      let us ← units wlen full
      match w.toUtf8 us with
      | none => .ok (none, live - 1)
      | some bs =>
        if bs.length = 0 then .ok (none, live - 1)
        else do
          let new ← fillFrom bs.length bs
          let live := live + 1
          let new ← wr new bs.length (some 0)
          .ok (some new, live)

/-- file_misc.c:308-310 -/
def slashLoop : Nat → Nat → List Byte → Except Fault (List Byte)
  | 0, _, buf => .ok buf
  | n + 1, i, buf => do
    let c ← rd buf i
    let buf ← if c = 0x2f#8 then wr buf i 0x5c#8 else .ok buf
    slashLoop n (i + 1) buf

/-- file_misc.c:299-316: the text that `directory`, of `MAX_PATH` bytes, then holds.  For an empty name `length - 1` is the largest number there is. -/
def fixDir (dirname : List Byte) : Except Fault (List Byte) := do
  let length ← strlen dirname
  let directory ← strncpy (List.replicate 260 0) dirname length
  let directory ← slashLoop length 0 directory
  if length = 0 then .error .oob
  else do
    let c ← rd directory (length - 1)
    let directory ← if c = 0x5c#8 then wr directory (length - 1) 0 else .ok directory
    Path.textAt directory

/-- `"\\"` -/
def backslash : List Byte := [0x5c#8]

mutual
/-- file_misc.c:298-341 `zpl__file_direntry`; `Node.link` is what has `FILE_ATTRIBUTE_REPARSE_POINT`. -/
def direntry (before recurse : Bool) (dirname : List Byte) : Node → Out → Except Fault Out
  | .file, o => do
    let _ ← fixDir (dirname ++ [0])
    .ok o
  | .folder opens es, o => do
    let directory ← fixDir (dirname ++ [0])
    if opens then do
      let o ← entries before recurse directory es { o with handles := o.handles + 1 }
      .ok { o with handles := o.handles - 1 }
    else .ok o
  | .link opens, o => do
    let _ ← fixDir (dirname ++ [0])
    if opens then .error .ub else .ok o
/-- file_misc.c:322-338, the loop over `_wfindnext` -/
def entries (before recurse : Bool) (directory : List Byte) : List (Name × Node) → Out → Except Fault Out
  | [], o => .ok o
  | (n, k) :: es, o => do
    if ← skipped before n then entries before recurse directory es o
    else
      let dirpath := directory ++ backslash ++ n
      let o := { o with text := o.text ++ dirpath ++ newline }
      (if recurse && k.isFolder then direntry before recurse dirpath k o else .ok o) >>= entries before recurse directory es
end

/-- file_misc.c:346-350 `zpl_path_dirlist` -/
def dirlist (before recurse : Bool) (dirname : List Byte) (k : Node) (handles : Nat) : Except Fault Out := direntry before recurse dirname k ⟨[], handles⟩

/-- file_misc.c:467-478 `zpl_path_fix_slashes` -/
def fixSlashes : List Byte → Except Fault (List Byte)
  | [] => .error .oob
  | c :: s => if c = 0 then .ok (c :: s) else do .ok ((if c = 0x2f#8 then 0x5c#8 else c) :: (← fixSlashes s))

/-- file_misc.c:27-42 `zpl_fs_last_write_time`: `time` is what `GetFileAttributesExW` gives. -/
def lastWriteTime (w : Windows) (time : List Unit16 → Option (BitVec 64)) (path : List Byte) (live : Nat) : Except Fault (BitVec 64 × Nat) := do
  let (r, live) ← allocUcs2 w path live
  match r with
  | none => .ok (0, live)
  | some (name, _) => do
    let name ← wideText name
    let last := (time name).getD 0
    let live := live - 1
    .ok ((last.extractLsb' 32 32 ++ last.extractLsb' 0 32 : BitVec 64), live)

/-- file_misc.c:44-71 `zpl_fs_copy` and `zpl_fs_move`: `act` is `CopyFileW` or `MoveFileW`, and its result.  A NULL that is freed does nothing. -/
def fsTwo (w : Windows) (act : List Unit16 → List Unit16 → Bool) (old new : List Byte) (live : Nat) : Except Fault (Bool × Nat) := do
  let (r, live) ← allocUcs2 w old live
  match r with
  | none => .ok (false, live)
  | some (wold, _) => do
    let (r2, live) ← allocUcs2 w new live
    match r2 with
    | none => .ok (false, live - 1)
    | some (wnew, _) => do
      let result := act (← wideText wold) (← wideText wnew)
      .ok (result, live - 1 - 1)

/-- file_misc.c:74-85 `zpl_fs_remove` -/
def fsRemove (w : Windows) (act : List Unit16 → Bool) (name : List Byte) (live : Nat) : Except Fault (Bool × Nat) := do
  let (r, live) ← allocUcs2 w name live
  match r with
  | none => .ok (false, live)
  | some (wname, _) => do
    let result := act (← wideText wname)
    .ok (result, live - 1)

/-! ## Specification -/

/-- The name that Windows has for a text: a text with no characters or one that is ill-formed has none. -/
def wideName (w : Windows) (t : List Byte) : Option (List Unit16) := if t = [] then none else w.toWide t

/-- What the conversion of Windows does: a text with characters, none of them 0, becomes units, none of them 0. -/
def Converts (w : Windows) : Prop := ∀ t u, Text t → t ≠ [] → w.toWide t = some u → u ≠ [] ∧ ∀ x ∈ u, x ≠ 0

/-- A path with the separators of Windows. -/
def native (d : List Byte) : List Byte := d.map fun c => if c = 0x2f#8 then 0x5c#8 else c

/-- ... without one at its end. -/
def folder (d : List Byte) : List Byte := if (native d).getLast? = some 0x5c#8 then (native d).dropLast else native d

/-- The path `p` below a folder as a text. -/
def spell (d : List Byte) (p : List Name) : List Byte := d ++ p.flatMap (backslash ++ ·)

mutual
/-- A tree as Windows has them: no separator in a name, none but `..` begins with two dots, and - where the listing goes - the name of every folder fits: `len` is the length of the
name of this one. -/
def Tame (recurse : Bool) (len : Nat) : Node → Prop
  | .folder _ es => len ≤ 259 ∧ TameEntries recurse len es
  | _ => True
def TameEntries (recurse : Bool) (len : Nat) : List (Name × Node) → Prop
  | [] => True
  | (n, k) :: es => (Text n ∧ n ≠ [] ∧ 0x2f#8 ∉ n ∧ 0x5c#8 ∉ n ∧ (n.take 2 = dotdot → n = dotdot)) ∧ (recurse = true → n ≠ dot → n ≠ dotdot → Tame recurse (len + 1 + n.length) k) ∧ TameEntries recurse len es
end

/-! ## Lemmas -/

theorem ok_bind {α β : Type} (a : α) (f : α → Except Fault β) : ((Except.ok a : Except Fault α) >>= f) = f a := rfl

theorem native_text {d : List Byte} (h : Text d) : Text (native d) := by
  intro c hc
  unfold native at hc
  rw [List.mem_map] at hc
  obtain ⟨x, hx, e⟩ := hc
  subst e
  split
  · decide
  · exact h x hx

theorem slashLoop_ok : ∀ (n : Nat) (done d rest : List Byte), d.length = n → slashLoop n done.length (done ++ d ++ rest) = .ok (done ++ native d ++ rest)
  | 0, done, d, rest, h => by
    have : d = [] := List.eq_nil_of_length_eq_zero h
    subst this
    rfl
  | n + 1, done, c :: d, rest, h => by
    have ih := slashLoop_ok n (done ++ [if c = 0x2f#8 then 0x5c#8 else c]) d rest (by simpa using h)
    rw [slashLoop]
    have hr : rd (done ++ c :: d ++ rest) done.length = .ok c := by simp [rd]
    rw [hr, ok_bind]
    by_cases hc : c = 0x2f#8
    · rw [if_pos hc]
      have hw : wr (done ++ c :: d ++ rest) done.length 0x5c#8 = .ok (done ++ 0x5c#8 :: d ++ rest) := by
        unfold wr
        rw [if_pos (by simp)]
        simp
      rw [hw, ok_bind]
      rw [if_pos hc] at ih
      simpa [native, hc] using ih
    · rw [if_neg hc, ok_bind]
      rw [if_neg hc] at ih
      simpa [native, hc] using ih

theorem native_length (d : List Byte) : (native d).length = d.length := by simp [native]

/-- The folder name in the buffer. -/
theorem fixDir_ok {d : List Byte} (hd : Text d) (rest : List Byte) (h0 : d ≠ []) (hl : d.length ≤ 259) : fixDir (d ++ 0 :: rest) = .ok (folder d) := by
  have hpos : 0 < d.length := List.length_pos_iff.2 h0
  unfold fixDir
  rw [strlen_ok hd, ok_bind, C30_strncpy hd rest d.length _ (by rw [List.length_replicate]; omega), ok_bind]
  rw [List.take_length, Nat.sub_self, List.drop_replicate, List.replicate_zero, List.append_nil]
  have hs := slashLoop_ok d.length [] d (List.replicate (260 - d.length) 0) rfl
  simp only [List.length_nil, List.nil_append] at hs
  rw [hs, ok_bind, if_neg (by omega)]
  have hz : List.replicate (260 - d.length) (0 : Byte) = 0 :: List.replicate (259 - d.length) 0 := by
    rw [show 260 - d.length = (259 - d.length) + 1 by omega, List.replicate_succ]
  rw [hz]
  obtain ⟨e, c, hec⟩ : ∃ e c, native d = e ++ [c] := by
    refine ⟨(native d).dropLast, (native d).getLast (by intro h; have := native_length d; rw [h] at this; simp at this; omega), ?_⟩
    exact (List.dropLast_concat_getLast _).symm
  have hlen : d.length = e.length + 1 := by rw [← native_length d, hec]; simp
  have hn := native_text hd
  unfold folder
  rw [hec] at hn ⊢
  have hr : rd (e ++ [c] ++ 0 :: List.replicate (259 - d.length) 0) (d.length - 1) = .ok c := by
    unfold rd
    rw [hlen, Nat.add_sub_cancel, List.append_assoc, List.getElem?_append_right (Nat.le_refl _)]
    simp
  rw [hr, ok_bind]
  by_cases hc : c = 0x5c#8
  · rw [if_pos hc, if_pos (by simp [hc])]
    have hw : wr (e ++ [c] ++ 0 :: List.replicate (259 - d.length) 0) (d.length - 1) 0 = .ok (e ++ 0 :: 0 :: List.replicate (259 - d.length) 0) := by
      unfold wr
      rw [if_pos (by simp; omega), hlen, Nat.add_sub_cancel]
      simp
    rw [hw, ok_bind]
    show Path.textAt (e ++ 0 :: 0 :: List.replicate (259 - d.length) 0) = _
    rw [Path.textAt_ok (s := e) (fun x hx => hn x (by simp [hx]))]
    simp
  · rw [if_neg hc, if_neg (by simp [hc]), ok_bind]
    exact Path.textAt_ok hn _

theorem strlen_over : ∀ (s : List Byte), Text s → strlen s = .error .oob
  | [], _ => rfl
  | c :: s, h => by
    have := strlen_over s (fun x hx => h x (by simp [hx]))
    have hc : c ≠ 0 := h c (by simp)
    rw [strlen, if_pos hc, this]
    rfl

theorem native_clean {d : List Byte} (h : 0x2f#8 ∉ d) : native d = d := by
  unfold native
  conv => rhs; rw [← List.map_id d]
  apply List.map_congr_left
  intro c hc
  rw [if_neg (by intro e; exact h (e ▸ hc))]
  rfl

theorem folder_clean {d n : List Byte} (hd : 0x2f#8 ∉ d) (hn : 0x2f#8 ∉ n) (hb : 0x5c#8 ∉ n) (h0 : n ≠ []) : folder (d ++ backslash ++ n) = d ++ backslash ++ n := by
  have h1 : native (d ++ backslash ++ n) = d ++ backslash ++ n := native_clean (by
    simp only [List.mem_append, not_or]
    exact ⟨⟨hd, by decide⟩, hn⟩)
  unfold folder
  rw [h1, if_neg]
  rw [List.getLast?_append]
  intro h
  cases e : n.getLast? with
  | none => exact h0 (List.getLast?_eq_none_iff.1 e)
  | some c =>
    rw [e] at h
    simp at h
    subst h
    exact hb (List.mem_of_getLast? e)

theorem spell_cons (d : List Byte) (n : Name) (p : List Name) : spell d (n :: p) = spell (d ++ backslash ++ n) p := by simp [spell]

theorem spell_one (d : List Byte) (n : Name) : spell d [n] = d ++ backslash ++ n := by simp [spell]

mutual
theorem direntry_ok (before recurse : Bool) : ∀ (k : Node) (d : List Byte) (o : Out), Tame recurse d.length k → k.isFolder = true → Text d → d ≠ [] → 0x2f#8 ∉ folder d → (folder d).length ≤ d.length →
    Tame recurse (folder d).length k → direntry before recurse d k o = .ok ⟨o.text ++ unlines ((preorder recurse k).map (spell (folder d))), o.handles⟩
  | .file, d, o, _, h, _, _, _, _, _ => by cases h
  | .link b, d, o, _, h, _, _, _, _, _ => by cases h
  | .folder false es, d, o, ht, _, hd, h0, _, _, _ => by
    unfold Tame at ht
    rw [direntry, fixDir_ok hd [] h0 ht.1, ok_bind]
    simp [preorder, unlines]
  | .folder true es, d, o, ht, _, hd, h0, hs, _, ht' => by
    unfold Tame at ht ht'
    have ht2 : Text (folder d) := by
      intro c hc
      have := native_text hd
      unfold folder at hc
      split at hc
      · exact this c (List.dropLast_subset _ hc)
      · exact this c hc
    rw [direntry, fixDir_ok hd [] h0 ht.1, ok_bind, if_pos rfl, entries_ok before recurse es (folder d) _ ht'.2 ht2 hs, ok_bind]
    simp [preorder]
theorem entries_ok (before recurse : Bool) : ∀ (es : List (Name × Node)) (d : List Byte) (o : Out), TameEntries recurse d.length es → Text d → 0x2f#8 ∉ d →
    entries before recurse d es o = .ok ⟨o.text ++ unlines ((inside recurse es).map (spell d)), o.handles⟩
  | [], d, o, _, _, _ => by simp [entries, inside, unlines]
  | (n, k) :: es, d, o, ht, hd, hsl => by
    unfold TameEntries at ht
    obtain ⟨⟨hn, hn0, hn1, hn2, hdd⟩, hk, hes⟩ := ht
    rw [entries, skipped_ok before hn hdd, ok_bind]
    by_cases hs : n = dot ∨ n = dotdot
    · rw [decide_eq_true hs, if_pos rfl, entries_ok before recurse es d o hes hd hsl]
      simp [inside, hs]
    · rw [decide_eq_false hs, if_neg (by decide)]
      have hpath : Text (d ++ backslash ++ n) := by
        intro c hc
        simp only [List.mem_append] at hc
        rcases hc with (hc | hc) | hc
        · exact hd c hc
        · simp [backslash] at hc; subst hc; decide
        · exact hn c hc
      have hf := folder_clean hsl hn1 hn2 hn0
      have e2 : ((preorder recurse k).map (n :: ·)).map (spell d) = (preorder recurse k).map (spell (d ++ backslash ++ n)) := by
        rw [List.map_map]
        apply List.map_congr_left
        intro p _
        exact spell_cons d n p
      have sub : (if (recurse && k.isFolder) = true then direntry before recurse (d ++ backslash ++ n) k ⟨o.text ++ (d ++ backslash ++ n) ++ newline, o.handles⟩
          else .ok ⟨o.text ++ (d ++ backslash ++ n) ++ newline, o.handles⟩) =
          .ok ⟨o.text ++ unlines (([n] :: (if recurse then (preorder recurse k).map (n :: ·) else [])).map (spell d)), o.handles⟩ := by
        cases hrec : recurse with
        | false =>
          simp only [Bool.false_and, if_neg (show ¬ (false = true) by decide)]
          simp [unlines, spell_one, newline]
        | true =>
          subst hrec
          cases hfo : k.isFolder with
          | false =>
            have hp : preorder true k = [] := by
              cases k with
              | file => rfl
              | link b => rfl
              | folder b es => cases hfo
            simp only [Bool.and_false, if_neg (show ¬ (false = true) by decide), if_true, hp]
            simp [unlines, spell_one, newline]
          | true =>
            have htk := hk rfl (fun h => hs (Or.inl h)) (fun h => hs (Or.inr h))
            have hl : (d ++ backslash ++ n).length = d.length + 1 + n.length := by simp [backslash]; omega
            simp only [Bool.and_self, if_true]
            rw [direntry_ok before true k (d ++ backslash ++ n) _ (by rw [hl]; exact htk) hfo hpath (by simp [backslash]) (by rw [hf]; simp only [List.mem_append, not_or]; exact ⟨⟨hsl, by decide⟩, hn1⟩)
              (by rw [hf]; exact Nat.le_refl _) (by rw [hf, hl]; exact htk), hf]
            rw [List.map_cons, e2]
            simp [unlines, spell_one, newline]
      have sub' := sub
      simp only [List.append_assoc] at sub' ⊢
      rw [sub', ok_bind, entries_ok before recurse es d _ hes hd hsl]
      simp only [inside, hs, if_false, List.map_append, unlines_append, List.append_assoc]
end

theorem folder_no_slash (d : List Byte) : 0x2f#8 ∉ folder d := by
  have h : 0x2f#8 ∉ native d := by
    unfold native
    rw [List.mem_map]
    rintro ⟨c, _, e⟩
    split at e
    · cases e
    · exact absurd e ‹_›
  unfold folder
  split
  · exact fun hc => h (List.dropLast_subset _ hc)
  · exact h

theorem folder_length (d : List Byte) : (folder d).length ≤ d.length := by
  unfold folder
  split
  · rw [List.length_dropLast, native_length]; omega
  · rw [native_length]; exact Nat.le_refl _

mutual
theorem Tame.mono {recurse : Bool} {a b : Nat} (h : a ≤ b) : ∀ (k : Node), Tame recurse b k → Tame recurse a k
  | .file, _ => by simp [Tame]
  | .link _, _ => by simp [Tame]
  | .folder _ es, ht => by
    unfold Tame at ht ⊢
    exact ⟨by omega, TameEntries.mono h es ht.2⟩
theorem TameEntries.mono {recurse : Bool} {a b : Nat} (h : a ≤ b) : ∀ (es : List (Name × Node)), TameEntries recurse b es → TameEntries recurse a es
  | [], _ => by simp [TameEntries]
  | (n, k) :: es, ht => by
    unfold TameEntries at ht ⊢
    exact ⟨ht.1, fun r h1 h2 => Tame.mono (by omega) k (ht.2.1 r h1 h2), TameEntries.mono h es ht.2.2⟩
end

/-! ## Properties -/

/-- **C164 (partial).**  The listing of a folder is the text of the paths in it, one per line, a folder before what is in it, with the separators of Windows; the handles used for it are all
closed again.

`_partial`: for trees in which no name but `..` begins with two dots and no folder that is listed has a name of more than 259 bytes (`C164_listing_overrun`). -/
theorem C164_listing_partial (before recurse : Bool) {d : List Byte} (hd : Text d) (h0 : d ≠ []) (k : Node) (ht : Tame recurse d.length k) (hf : k.isFolder = true) (handles : Nat) :
    dirlist before recurse d k handles = .ok ⟨unlines ((preorder recurse k).map (spell (folder d))), handles⟩ := by
  unfold dirlist
  rw [direntry_ok before recurse k d _ ht hf hd h0 (folder_no_slash d) (folder_length d) (Tame.mono (folder_length d) k ht)]
  simp

/-- **C164 (deviation).**  The name of a folder that is longer than the buffer is written over its end; one that fills it is read over its end; of an empty one the byte before is looked at. -/
theorem C164_listing_overrun (before recurse : Bool) {d : List Byte} (hd : Text d) (k : Node) (handles : Nat) (h : d = [] ∨ 260 < d.length ∨ (d.length = 260 ∧ (native d).getLast? ≠ some 0x5c#8)) :
    dirlist before recurse d k handles = .error .oob := by
  have key : fixDir (d ++ [0]) = .error .oob := by
    unfold fixDir
    rw [strlen_ok hd, ok_bind]
    rcases h with h | h | h
    · subst h
      rw [show strncpy (List.replicate 260 0) ([] ++ [0]) ([] : List Byte).length = .ok (List.replicate 260 0) from rfl, ok_bind]
      rfl
    · unfold strncpy
      rw [Dir.copyLoop_over _ _ _ (by rw [List.length_replicate]; exact h)]
      rfl
    · rw [C30_strncpy hd [] d.length _ (by rw [List.length_replicate]; omega), ok_bind]
      rw [List.take_length, Nat.sub_self, List.drop_replicate, List.replicate_zero, List.append_nil]
      have hs := slashLoop_ok d.length [] d (List.replicate (260 - d.length) 0) rfl
      simp only [List.length_nil, List.nil_append] at hs
      rw [hs, ok_bind, if_neg (by omega), show 260 - d.length = 0 by omega, List.replicate_zero, List.append_nil]
      obtain ⟨e, c, hec⟩ : ∃ e c, native d = e ++ [c] := by
        refine ⟨(native d).dropLast, (native d).getLast (by intro h'; have := native_length d; rw [h'] at this; simp at this; omega), ?_⟩
        exact (List.dropLast_concat_getLast _).symm
      have hlen : d.length = e.length + 1 := by rw [← native_length d, hec]; simp
      have hn := native_text hd
      have hlast := h.2
      rw [hec] at hn hlast ⊢
      have hr : rd (e ++ [c]) (d.length - 1) = .ok c := by
        unfold rd
        rw [hlen, Nat.add_sub_cancel, List.getElem?_append_right (Nat.le_refl _)]
        simp
      rw [hr, ok_bind, if_neg (by simpa using hlast), ok_bind]
      show Path.textAt (e ++ [c]) = _
      unfold Path.textAt
      rw [strlen_over _ hn]
      rfl
  unfold dirlist
  cases k <;> rw [direntry, key] <;> rfl

/-- **C164.**  A text that Windows can convert becomes a block with the units and a 0; an empty or ill-formed one becomes NULL, and nothing is allocated. -/
theorem C164_alloc_ucs2 (w : Windows) {t : List Byte} (ht : Text t) (rest : List Byte) (live : Nat) :
    (t ≠ [] → ∀ u, w.toWide t = some u → u ≠ [] → allocUcs2 w (t ++ 0 :: rest) live = .ok (some ((u ++ [0]).map some, u.length), live + 1)) ∧
    (t = [] ∨ w.toWide t = none → allocUcs2 w (t ++ 0 :: rest) live = .ok (none, live)) := by
  constructor
  · intro h0 u hu hu0
    have hp : t.length ≠ 0 := by simpa using h0
    have hq : u.length ≠ 0 := by simpa using hu0
    unfold allocUcs2
    rw [strlen_ok ht, ok_bind, if_neg hp, List.take_left' rfl, hu]
    dsimp only
    rw [if_neg hq]
    have : fillFrom (u.length + 1) u = .ok (u.map some ++ [none]) := by
      unfold fillFrom
      rw [if_pos (by omega), show u.length + 1 - u.length = 1 by omega]
      rfl
    rw [this, ok_bind]
    have hw : wr (u.map some ++ [none]) u.length (some (0 : Unit16)) = .ok ((u ++ [0]).map some) := by
      unfold wr
      rw [if_pos (by simp)]
      congr 1
      rw [List.set_append_right _ _ (by simp)]
      simp
    rw [hw, ok_bind]
  · intro h
    unfold allocUcs2
    rw [strlen_ok ht, ok_bind]
    by_cases c : t.length = 0
    · rw [if_pos c]
    · rw [if_neg c, List.take_left' rfl]
      rcases h with h | h
      · subst h; exact absurd rfl c
      · rw [h]

theorem wideText_ok {u : List Unit16} (h : ∀ x ∈ u, x ≠ 0) (rest : List (Option Unit16)) : wideText (u.map some ++ some 0 :: rest) = .ok u := by
  induction u with
  | nil => simp [wideText]
  | cons x u ih =>
    have hx : x ≠ 0 := h x (by simp)
    simp only [List.map_cons, List.cons_append, wideText, if_neg hx]
    rw [ih (fun y hy => h y (by simp [hy]))]
    rfl

theorem units_ok (us : List Unit16) (rest : List (Option Unit16)) : units us.length (us.map some ++ rest) = .ok us := by
  induction us with
  | nil => simp [units]
  | cons x us ih => simp only [List.length_cons, List.map_cons, List.cons_append, units, ih, ok_bind]

/-- **C164 (deviation).**  Whenever there is a full name, the 0 at its end is written behind the block for it. -/
theorem C164_full_name_overrun (w : Windows) {t : List Byte} (ht : Text t) (rest : List Byte) (live : Nat) {u f : List Unit16} {bs : List Byte} (h0 : t ≠ []) (hu : w.toWide t = some u) (hu0 : u ≠ [])
    (hz : ∀ x ∈ u, x ≠ 0) (hf : w.full u = some f) (hb : w.toUtf8 (f ++ [0]) = some bs) (hb0 : bs ≠ []) : fullName w (t ++ 0 :: rest) live = .error .oob := by
  have hq : bs.length ≠ 0 := by simpa using hb0
  unfold fullName
  rw [(C164_alloc_ucs2 w ht rest live).1 h0 u hu hu0, ok_bind]
  dsimp only
  rw [show (u ++ [(0 : Unit16)]).map some = u.map some ++ some 0 :: [] by simp, wideText_ok hz [], ok_bind, hf]
  dsimp only
  have h1 : fillFrom (f.length + 1 + 1) (f ++ [0]) = .ok ((f ++ [0]).map some ++ [none]) := by
    unfold fillFrom
    rw [if_pos (by simp), show f.length + 1 + 1 - (f ++ [(0 : Unit16)]).length = 1 by simp]
    rfl
  rw [h1, ok_bind]
  have h2 : wr ((f ++ [0]).map some ++ [none]) (f.length + 1) (some (0 : Unit16)) = .ok ((f ++ [0]).map some ++ [some 0]) := by
    unfold wr
    rw [if_pos (by simp)]
    congr 1
    rw [List.set_append_right _ _ (by simp)]
    simp
  rw [h2, ok_bind]
  have h3 := units_ok (f ++ [0]) [some 0]
  rw [show (f ++ [(0 : Unit16)]).length = f.length + 1 by simp] at h3
  rw [h3, ok_bind, hb]
  dsimp only
  rw [if_neg hq]
  have h4 : fillFrom bs.length bs = .ok (bs.map some) := by
    unfold fillFrom
    rw [if_pos (Nat.le_refl _)]
    simp
  rw [h4, ok_bind]
  have h5 : wr (bs.map some) bs.length (some 0) = .error .oob := by
    unfold wr
    rw [if_neg (by simp)]
  rw [h5]
  rfl

/-- **C164 (deviation).**  If there is no full name, the block with the converted path is lost. -/
theorem C164_full_name_leak (w : Windows) {t : List Byte} (ht : Text t) (rest : List Byte) (live : Nat) {u : List Unit16} (h0 : t ≠ []) (hu : w.toWide t = some u) (hu0 : u ≠ [])
    (hz : ∀ x ∈ u, x ≠ 0) (hf : w.full u = none) : fullName w (t ++ 0 :: rest) live = .ok (none, live + 1) := by
  unfold fullName
  rw [(C164_alloc_ucs2 w ht rest live).1 h0 u hu hu0, ok_bind]
  dsimp only
  rw [show (u ++ [(0 : Unit16)]).map some = u.map some ++ some 0 :: [] by simp, wideText_ok hz [], ok_bind, hf]

theorem allocUcs2_name {w : Windows} (hw : Converts w) {t : List Byte} (ht : Text t) (rest : List Byte) (live : Nat) :
    (∃ u, wideName w t = some u ∧ (∀ x ∈ u, x ≠ 0) ∧ allocUcs2 w (t ++ 0 :: rest) live = .ok (some (u.map some ++ some 0 :: [], u.length), live + 1)) ∨
    (wideName w t = none ∧ allocUcs2 w (t ++ 0 :: rest) live = .ok (none, live)) := by
  by_cases h0 : t = []
  · exact Or.inr ⟨by rw [wideName, if_pos h0], (C164_alloc_ucs2 w ht rest live).2 (Or.inl h0)⟩
  · cases hu : w.toWide t with
    | none => exact Or.inr ⟨by rw [wideName, if_neg h0, hu], (C164_alloc_ucs2 w ht rest live).2 (Or.inr hu)⟩
    | some u =>
      obtain ⟨h1, h2⟩ := hw t u ht h0 hu
      refine Or.inl ⟨u, by rw [wideName, if_neg h0, hu], h2, ?_⟩
      rw [(C164_alloc_ucs2 w ht rest live).1 h0 u hu h1]
      simp

/-- **C164.**  Copying, moving, removing and asking for the time of the last change: Windows is asked exactly when the names can be converted, with the names meant, its answer is passed on, and every
block used is given back. -/
theorem C164_files {w : Windows} (hw : Converts w) {t t2 : List Byte} (ht : Text t) (ht2 : Text t2) (rest rest2 : List Byte) (live : Nat) :
    (∀ act, fsTwo w act (t ++ 0 :: rest) (t2 ++ 0 :: rest2) live = .ok ((match wideName w t, wideName w t2 with | some u, some v => act u v | _, _ => false), live)) ∧
    (∀ act, fsRemove w act (t ++ 0 :: rest) live = .ok ((match wideName w t with | some u => act u | none => false), live)) ∧
    (∀ time, lastWriteTime w time (t ++ 0 :: rest) live = .ok ((match wideName w t with | some u => (time u).getD 0 | none => 0), live)) := by
  refine ⟨fun act => ?_, fun act => ?_, fun time => ?_⟩
  · unfold fsTwo
    rcases allocUcs2_name hw ht rest live with ⟨u, h1, h2, h3⟩ | ⟨h1, h3⟩
    · rw [h3, ok_bind, h1]
      dsimp only
      rcases allocUcs2_name hw ht2 rest2 (live + 1) with ⟨v, k1, k2, k3⟩ | ⟨k1, k3⟩
      · rw [k3, ok_bind, k1]
        dsimp only
        rw [wideText_ok h2, ok_bind, wideText_ok k2, ok_bind]
        rfl
      · rw [k3, ok_bind, k1]
        rfl
    · rw [h3, ok_bind, h1]
  · unfold fsRemove
    rcases allocUcs2_name hw ht rest live with ⟨u, h1, h2, h3⟩ | ⟨h1, h3⟩
    · rw [h3, ok_bind, h1]
      dsimp only
      rw [wideText_ok h2, ok_bind]
      rfl
    · rw [h3, ok_bind, h1]
  · unfold lastWriteTime
    rcases allocUcs2_name hw ht rest live with ⟨u, h1, h2, h3⟩ | ⟨h1, h3⟩
    · rw [h3, ok_bind, h1]
      dsimp only
      rw [wideText_ok h2, ok_bind]
      have : ∀ x : BitVec 64, (x.extractLsb' 32 32 ++ x.extractLsb' 0 32 : BitVec 64) = x := by
        intro x
        apply BitVec.eq_of_getLsbD_eq
        intro i hi
        rw [BitVec.getLsbD_append]
        by_cases h : i < 32
        · simp [h]
        · simp [h]
          rw [show 32 + (i - 32) = i by omega]
          simp; omega
      rw [this]
      rfl
    · rw [h3, ok_bind, h1]

/-- **C164.**  `zpl_path_fix_slashes` turns every slash of a text into a backslash and changes nothing else, behind the text neither. -/
theorem C164_fix_slashes {t : List Byte} (ht : Text t) (rest : List Byte) : ∃ t' : List Byte, fixSlashes (t ++ 0 :: rest) = .ok (t' ++ 0 :: rest) ∧ t'.length = t.length ∧ 0x2f#8 ∉ t' ∧
    ∀ i : Nat, t'[i]? = if t[i]? = some 0x2f#8 then some 0x5c#8 else t[i]? := by
  refine ⟨native t, ?_, native_length t, ?_, ?_⟩
  · induction t with
    | nil => simp [fixSlashes, native]
    | cons c t ih =>
      have hc : c ≠ 0 := ht c (by simp)
      simp only [List.cons_append, fixSlashes, if_neg hc]
      rw [ih (fun x hx => ht x (by simp [hx])), ok_bind]
      simp [native]
  · unfold native
    rw [List.mem_map]
    rintro ⟨c, _, e⟩
    split at e
    · cases e
    · exact absurd e ‹_›
  · intro i
    unfold native
    rw [List.getElem?_map]
    cases t[i]? with
    | none => simp
    | some c => by_cases hc : c = 0x2f#8 <;> simp [hc]

/-! ## Examples -/

/-- `a/` with a file `x` and a folder `s` that holds `y`. -/
def exTree : Node := .folder true [(dot, .folder true []), (dotdot, .folder true []), ([0x78#8], .file), ([0x73#8], .folder true [([0x79#8], .file)])]

example : dirlist true true [0x61#8, 0x2f#8] exTree 3 = .ok ⟨[0x61#8, 0x5c#8, 0x78#8, 10#8, 0x61#8, 0x5c#8, 0x73#8, 10#8, 0x61#8, 0x5c#8, 0x73#8, 0x5c#8, 0x79#8, 10#8], 3⟩ := by
  rw [C164_listing_partial true true (d := [0x61#8, 0x2f#8]) (by unfold Text; decide) (by decide) exTree (by simp [exTree, Tame, TameEntries, Text, dot, dotdot]) rfl 3]
  decide

/-- ASCII names: the hypotheses of `C164_full_name_overrun` hold for `x`, whose full name is `C:\x`. -/
def exWindows : Windows where
  toWide := fun t => some (t.map (·.setWidth 16))
  full := fun u => some ([0x43#16, 0x3a#16, 0x5c#16] ++ u)
  toUtf8 := fun u => some (u.map (·.setWidth 8))

theorem exWindows_converts : Converts exWindows := by
  intro t u ht h0 h
  simp only [exWindows, Option.some.injEq] at h
  subst h
  refine ⟨by simpa using h0, ?_⟩
  intro x hx
  rw [List.mem_map] at hx
  obtain ⟨c, hc, rfl⟩ := hx
  intro h
  exact ht c hc (by have := congrArg BitVec.toNat h; simp at this; apply BitVec.eq_of_toNat_eq; simp; omega)

/-- Moving `a` to `b` asks Windows to move `a` to `b`. -/
example : fsTwo exWindows (fun u v => u == [0x61#16] && v == [0x62#16]) ([0x61#8] ++ 0 :: []) ([0x62#8] ++ 0 :: []) 5 = .ok (true, 5) := by
  rw [(C164_files exWindows_converts (t := [0x61#8]) (t2 := [0x62#8]) (by unfold Text; decide) (by unfold Text; decide) [] [] 5).1]
  rfl

example : fullName exWindows ([0x78#8] ++ 0 :: []) 0 = .error .oob := by
  have ht : Text [0x78#8] := by unfold Text; decide
  have h1 : exWindows.toWide [0x78#8] = some [0x78#16] := rfl
  have h2 : exWindows.full [0x78#16] = some [0x43#16, 0x3a#16, 0x5c#16, 0x78#16] := rfl
  have h3 : exWindows.toUtf8 ([0x43#16, 0x3a#16, 0x5c#16, 0x78#16] ++ [0]) = some [0x43#8, 0x3a#8, 0x5c#8, 0x78#8, 0#8] := rfl
  have h4 : ∀ x ∈ [0x78#16], x ≠ 0 := by simp
  exact C164_full_name_overrun exWindows ht [] 0 (List.cons_ne_nil _ _) h1 (List.cons_ne_nil _ _) h4 h2 h3 (List.cons_ne_nil _ _)

end Zpl.WinPath
