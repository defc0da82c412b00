import Verif.Sys.Tar
import Verif.Sys.Dir

/-!
# Archives of folders (code/source/core/file_tar.c:100-107, code/header/core/file_tar.h:95-97)  -  C139

The listing is that of `Sys.Dir` (C121), the archive that of `Sys.Tar` (C52, C81).

## Model -/

namespace Zpl.Tar

open Str Print

/-- file_tar.c:100-107 `zpl_tar_pack_dir`: `fs` is what opening a path gives, `k` the folder; the archive and the result, and how many folders are open. -/
def packDir (pf : FloatPrinter) (buf : List Byte) (fs : List Byte → Opened) (before : Bool) (dirname : List Byte) (k : Dir.Node) (handles : Nat) (archive : File) :
    Except Fault ((File × Int) × Nat) := do
  let o ← Dir.dirlist before true dirname k handles
  let (ptrs, block) ← splitLines false (o.text ++ [0])
  let r ← pack pf buf (fun p => fs (p.takeWhile (· ≠ 0))) archive (ptrs.map fun p => block.drop p)
  .ok (r, o.handles)

/-- file_tar.h:95-97 `zpl_tar_unpack_dir`. -/
def unpackDir (maxPath fuel : Nat) (archive : File) (dest : List Byte) (d : Disk) : Except Fault (Disk × Int) := unpack (unpackFile maxPath dest) fuel archive d

/-! ## Lemmas -/

/-- The archive is complete only if every path is a file. -/
theorem pack_all_files (pf : FloatPrinter) (buf : List Byte) (fs : List Byte → Opened) : ∀ (paths : List (List Byte)) (archive a : File), pack pf buf fs archive paths = .ok (a, 0) →
    ∀ p ∈ paths, ∃ src mt, fs p = .file src mt
  | [], _, _, _, p, hp => by cases hp
  | q :: paths, archive, a, h, p, hp => by
    rw [pack] at h
    cases hq : fs q with
    | notExists => rw [hq] at h; simp at h
    | failed => rw [hq] at h; simp at h
    | folder size mt =>
      rw [hq] at h
      dsimp only at h
      cases h1 : header pf q (BitVec.ofInt 64 size) mt with
      | error e => rw [h1] at h; cases h
      | ok hr =>
        rw [h1, except_ok_bind] at h
        cases h2 : Align.alignI64 size 512 with
        | error e => rw [h2] at h; cases h
        | ok x => rw [h2, except_ok_bind] at h; simp at h
    | file src mt =>
      rw [hq] at h
      dsimp only at h
      cases h1 : packFile pf buf archive q src mt with
      | error e => rw [h1] at h; cases h
      | ok a1 =>
        rw [h1, except_ok_bind] at h
        rcases List.mem_cons.1 hp with rfl | hp
        · exact ⟨src, mt, hq⟩
        · exact pack_all_files pf buf fs paths a1 a h p hp

/-- What is listed, as blocks of memory. -/
theorem listing_blocks (before : Bool) (dirname : List Byte) (k : Dir.Node) (h : k.Tame) (hf : k.isFolder = true) (handles : Nat)
    (hp : ∀ p ∈ Dir.preorder true k, Line (Dir.spell dirname p)) (hcr : ∀ p ∈ Dir.preorder true k, (Dir.spell dirname p).getLast? ≠ some 13#8) :
    ∃ o ptrs block, Dir.dirlist before true dirname k handles = .ok o ∧ splitLines false (o.text ++ [0]) = .ok (ptrs, block) ∧
      ptrs.map (cstringAt block) = (Dir.preorder true k).map (Dir.spell dirname) ∧ ∀ p ∈ ptrs, ∃ after, block.drop p = cstringAt block p ++ 0 :: after := by
  obtain ⟨o, h1, h2⟩ := Dir.C121_listing_partial before true dirname k h hf handles
  have hne : ∀ p ∈ Dir.preorder true k, Dir.spell dirname p ≠ [] := by
    intro p hp'
    obtain ⟨es, -, hb⟩ := (Dir.mem_preorder true k p).1 hp'
    cases hb <;> simp [Dir.spell, Dir.slash]
  obtain ⟨ptrs, block, h3, h4, h5, h6⟩ := C32_split_lines_partial false ((Dir.preorder true k).map (Dir.spell dirname)) [] (by
      intro l hl
      obtain ⟨p, hp', rfl⟩ := List.mem_map.1 hl
      exact hp p hp') (by
      cases e : Dir.preorder true k with
      | nil => simp
      | cons p ps =>
        have := hne p (by rw [e]; simp)
        simpa using this)
  have h7 : ptrs.map (cstringAt block) = (Dir.preorder true k).map (Dir.spell dirname) := by
    rw [h4]
    simp only [Bool.false_eq_true, if_false]
    rw [List.map_map]
    apply List.map_congr_left
    intro p hp'
    simp [chomp, hcr p hp']
  refine ⟨o, ptrs, block, h1, by rw [h2]; exact h3, h7, ?_⟩
  intro p hpp
  have hc : cstringAt block p ≠ [] := by
    have hm : cstringAt block p ∈ (Dir.preorder true k).map (Dir.spell dirname) := by rw [← h7]; exact List.mem_map_of_mem hpp
    obtain ⟨q, hq, e⟩ := List.mem_map.1 hm
    rw [← e]
    exact hne q hq
  have hlt : p < block.length := by
    by_cases hlt : p < block.length
    · exact hlt
    · exact absurd (by rw [cstringAt, List.drop_of_length_le (by omega)]; rfl) hc
  have hz : (0 : Byte) ∈ block.drop p := by
    have hl : block.getLast? = some 0 := by
      have : block.getLast? = (block.drop (unlines ((Dir.preorder true k).map (Dir.spell dirname))).length).getLast? := by
        rw [List.getLast?_drop, if_neg (by rw [h5]; simp)]
      rw [this, h6]
      rfl
    have : (block.drop p).getLast? = some 0 := by rw [List.getLast?_drop, if_neg (by omega), hl]
    exact List.mem_of_getLast? this
  have htd := List.takeWhile_append_dropWhile (p := fun c : Byte => decide (c ≠ 0)) (l := block.drop p)
  cases hd : (block.drop p).dropWhile (fun c : Byte => decide (c ≠ 0)) with
  | nil =>
    rw [hd, List.append_nil] at htd
    have ha := List.all_takeWhile (p := fun c : Byte => decide (c ≠ 0)) (l := block.drop p)
    rw [htd, List.all_eq_true] at ha
    have := ha 0 hz
    simp at this
  | cons x after =>
    have hx : x = 0 := by
      have := List.head?_dropWhile_not (fun c : Byte => decide (c ≠ 0)) (block.drop p)
      rw [hd] at this
      simpa using this
    subst hx
    exact ⟨after, by rw [cstringAt, ← hd, htd]⟩

theorem mem_entries (es : List (Dir.Name × Dir.Node)) (h : Dir.TameEntries es) : ∀ n k, (n, k) ∈ es → Text n ∧ (n.take 2 = Dir.dotdot → n = Dir.dotdot) ∧ k.Tame := by
  induction es with
  | nil => intro n k h; cases h
  | cons e es ih =>
    obtain ⟨m, j⟩ := e
    unfold Dir.TameEntries at h
    intro n k hm
    rcases List.mem_cons.1 hm with hm | hm
    · cases hm; exact ⟨h.1.1, h.1.2, h.2.1⟩
    · exact ih h.2.2 n k hm

theorem inside_files : ∀ es : List (Dir.Name × Dir.Node), (∀ n k, (n, k) ∈ es → n ≠ Dir.dot → n ≠ Dir.dotdot → k = .file) → (Dir.inside true es).length ≤ es.length
  | [], _ => by simp [Dir.inside]
  | (n, k) :: es, h => by
    have ih := inside_files es fun m j hm => h m j (List.mem_cons_of_mem _ hm)
    rw [Dir.inside, List.length_append, List.length_cons]
    split
    · simp; omega
    · rename_i hs
      obtain rfl := h n k (by simp) (fun e => hs (.inl e)) (fun e => hs (.inr e))
      simp [Dir.preorder]
      omega

/-! ## C139 -/

/-- `n` is the name of an entry of a folder, other than `.` and `..`. -/
def Holds (es : List (Dir.Name × Dir.Node)) (n : Dir.Name) : Prop := (∃ k, (n, k) ∈ es) ∧ n ≠ Dir.dot ∧ n ≠ Dir.dotdot

/-- **C139.** A folder is packed and unpacked at another place: every file that was in it is there, below its folder's path, with its contents, and no other file is changed.

`_partial`: the folder has only files in it (`C139_subfolder_fails`), the paths have at most 12 characters (C52), and the names have no newline in them and do not end in a carriage return. -/
theorem C139_folder_partial (pf : FloatPrinter) {buf : List Byte} (hbuf : buf.length = 65536) (fs : List Byte → Opened) (before : Bool) {dirname : List Byte} (hdir : Line dirname)
    (hdd : dirname.take 2 ≠ [0x2e#8, 0x2e#8]) {es : List (Dir.Name × Dir.Node)} (ht : Dir.TameEntries es) (hfiles : ∀ n k, (n, k) ∈ es → n ≠ Dir.dot → n ≠ Dir.dotdot → k = .file)
    (contents : Dir.Name → List Byte) (mtime : Dir.Name → BitVec 64)
    (hfs : ∀ n, Holds es n → fs (dirname ++ Dir.slash ++ n) = .file (contents n) (mtime n) ∧ (contents n).length < 2 ^ 31 ∧ (mtime n).toNat < 2 ^ 31)
    (hname : ∀ n, Holds es n → n ≠ [] ∧ 0x2f#8 ∉ n ∧ Line n ∧ n.getLast? ≠ some 13#8 ∧ (dirname ++ Dir.slash ++ n).length ≤ 12) (handles : Nat)
    {archive : File} (hpos : archive.pos ≤ archive.bytes.length) {base : List Byte} (hb : Text base) (rb : List Byte) {maxPath : Nat} (hm : base.length + 13 < maxPath) (d : Disk) :
    ∃ archive' handles', packDir pf buf fs before dirname (.folder true es) handles archive = .ok ((archive', 0), handles') ∧
      (archive'.bytes.length < 2 ^ 62 → ∀ fuel, es.length < fuel → ∃ d', unpackDir maxPath fuel { archive' with pos := archive.pos } (base ++ 0 :: rb) d = .ok (d', 0) ∧
        (∀ n, Holds es n → d'.files (joined base (dirname ++ Dir.slash ++ n)) = some (contents n)) ∧
        ∀ q, (∀ n, Holds es n → q ≠ joined base (dirname ++ Dir.slash ++ n)) → d'.files q = d.files q) := by
  have hpre : ∀ p, p ∈ Dir.preorder true (.folder true es) ↔ ∃ n, Holds es n ∧ p = [n] := by
    intro p
    rw [Dir.C121_complete]
    constructor
    · intro h
      cases h with
      | here h a b => exact ⟨_, ⟨⟨_, h⟩, a, b⟩, rfl⟩
      | deeper r h a b c => exact absurd (hfiles _ _ h a b) (by simp)
    · rintro ⟨n, ⟨⟨k, hk⟩, a, b⟩, rfl⟩
      exact .here hk a b
  have hsp : ∀ n, Dir.spell dirname [n] = dirname ++ Dir.slash ++ n := by intro n; simp [Dir.spell]
  obtain ⟨o, ptrs, block, h1, h2, h3, h4⟩ := listing_blocks before dirname (.folder true es) (by unfold Dir.Node.Tame; exact ht) rfl handles
    (by
      intro p hp
      obtain ⟨n, hn, rfl⟩ := (hpre p).1 hp
      rw [hsp]
      intro c hc
      rcases List.mem_append.1 hc with hc | hc
      · rcases List.mem_append.1 hc with hc | hc
        · exact hdir c hc
        · rw [List.mem_singleton.1 hc]; decide
      · exact (hname n hn).2.2.1 c hc)
    (by
      intro p hp
      obtain ⟨n, hn, rfl⟩ := (hpre p).1 hp
      rw [hsp, List.getLast?_append]
      have := (hname n hn).2.2.2.1
      cases hl : n.getLast? with
      | none => exact absurd (List.getLast?_eq_none_iff.1 hl) (hname n hn).1
      | some x => rw [hl] at this; simpa using this)
  let nameOf : Nat → Dir.Name := fun p => (cstringAt block p).drop (dirname.length + 1)
  let entryOf : Nat → Entry := fun p => ⟨cstringAt block p, (block.drop p).drop ((cstringAt block p).length + 1), contents (nameOf p), mtime (nameOf p)⟩
  have hptr : ∀ p ∈ ptrs, Holds es (nameOf p) ∧ cstringAt block p = dirname ++ Dir.slash ++ nameOf p := by
    intro p hp
    have hmem : cstringAt block p ∈ (Dir.preorder true (.folder true es)).map (Dir.spell dirname) := by rw [← h3]; exact List.mem_map_of_mem hp
    obtain ⟨q, hq, e⟩ := List.mem_map.1 hmem
    obtain ⟨n, hn, rfl⟩ := (hpre q).1 hq
    rw [hsp] at e
    have hno : nameOf p = n := by
      show (cstringAt block p).drop (dirname.length + 1) = n
      rw [← e, List.append_assoc, ← List.drop_drop, List.drop_left]
      rfl
    rw [hno]
    exact ⟨hn, e.symm⟩
  have hback : ∀ n, Holds es n → ∃ p ∈ ptrs, nameOf p = n := by
    intro n hn
    have hmem : Dir.spell dirname [n] ∈ ptrs.map (cstringAt block) := by rw [h3]; exact List.mem_map_of_mem ((hpre [n]).2 ⟨n, hn, rfl⟩)
    obtain ⟨p, hp, e⟩ := List.mem_map.1 hmem
    refine ⟨p, hp, ?_⟩
    show (cstringAt block p).drop (dirname.length + 1) = n
    rw [e, hsp, List.append_assoc, ← List.drop_drop, List.drop_left]
    rfl
  have hpath : ∀ p ∈ ptrs, (entryOf p).path = block.drop p := by
    intro p hp
    obtain ⟨after, ha⟩ := h4 p hp
    show cstringAt block p ++ 0 :: (block.drop p).drop ((cstringAt block p).length + 1) = block.drop p
    generalize cstringAt block p = t at *
    rw [ha, ← List.drop_drop, List.drop_left]
    rfl
  have htext : ∀ n, Holds es n → Text (dirname ++ Dir.slash ++ n) := by
    intro n hn c hc
    rcases List.mem_append.1 hc with hc | hc
    · rcases List.mem_append.1 hc with hc | hc
      · exact (hdir c hc).1
      · rw [List.mem_singleton.1 hc]; decide
    · exact ((hname n hn).2.2.1 c hc).1
  have hmap : (ptrs.map entryOf).map Entry.path = ptrs.map fun p => block.drop p := by
    rw [List.map_map]
    exact List.map_congr_left hpath
  have hnm : ∀ p ∈ ptrs, (entryOf p).name = dirname ++ Dir.slash ++ nameOf p := fun p hp => (hptr p hp).2
  have hjl : ∀ p ∈ ptrs, (joined base (entryOf p).name).length < maxPath := by
    intro p hp
    have := (hname _ (hptr p hp).1).2.2.2.2
    rw [← hnm p hp] at this
    unfold joined
    rw [List.length_append, List.length_append]
    have : (if base = [] ∨ base.getLast? = some Path.sep then ([] : List Byte) else [Path.sep]).length ≤ 1 := by split <;> simp
    omega
  obtain ⟨a, e1, e2⟩ := C81_unpack_dir_partial pf hbuf (fun p => fs (p.takeWhile (· ≠ 0))) (ptrs.map entryOf) hpos
    (by
      intro e he
      obtain ⟨p, hp, rfl⟩ := List.mem_map.1 he
      obtain ⟨g1, g2⟩ := hptr p hp
      obtain ⟨f1, f2, f3⟩ := hfs _ g1
      refine ⟨⟨by rw [hnm p hp]; exact htext _ g1, by rw [hnm p hp]; exact (hname _ g1).2.2.2.2, f2, f3⟩, ?_⟩
      rw [hpath p hp]
      show fs (cstringAt block p) = _
      rw [g2, f1])
    hb rb (maxPath := maxPath) (by omega)
    (by
      intro e he
      obtain ⟨p, hp, rfl⟩ := List.mem_map.1 he
      obtain ⟨g1, g2⟩ := hptr p hp
      refine ⟨by rw [hnm p hp]; simp [Dir.slash], ?_, hjl p hp⟩
      rw [hnm p hp, List.getLast?_append]
      cases hl : (nameOf p).getLast? with
      | none => exact absurd (List.getLast?_eq_none_iff.1 hl) (hname _ g1).1
      | some x =>
        intro h
        have hx : x = 0x2f#8 := by simpa [Path.sep] using h
        exact (hname _ g1).2.1 (hx ▸ List.mem_of_getLast? hl)) d
  refine ⟨a, o.handles, ?_, fun hsz fuel hf => ?_⟩
  · rw [packDir, h1, except_ok_bind, h2, except_ok_bind]
    dsimp only
    rw [← hmap, e1, except_ok_bind]
  · have hlen : (ptrs.map entryOf).length ≤ es.length := by
      have := congrArg List.length h3
      rw [List.length_map, List.length_map] at this
      rw [List.length_map, this]
      exact inside_files es hfiles
    obtain ⟨d', k1, k2, -⟩ := e2 hsz fuel (by omega)
    have hskip : (ptrs.map entryOf).filter (fun e => !skipped e) = ptrs.map entryOf := by
      rw [List.filter_eq_self]
      intro e he
      obtain ⟨p, hp, rfl⟩ := List.mem_map.1 he
      have : ((dirname ++ Dir.slash ++ nameOf p).take 2 == [0x2e#8, 0x2e#8]) = false := by
        rw [beq_eq_false_iff_ne, List.append_assoc]
        match dirname, hdd with
        | [], _ => intro h; simp [Dir.slash] at h
        | [x], _ => intro h; simp [Dir.slash] at h
        | x :: y :: r, hdd => intro h; exact hdd (by simpa using h)
      rw [skipped, hnm p hp, this]
      rfl
    rw [hskip] at k2
    refine ⟨d', k1, fun n hn => ?_, fun q hq => ?_⟩
    · rw [k2, contentsAt]
      obtain ⟨p, hp, hpn⟩ := hback n hn
      cases hfind : (ptrs.map entryOf).reverse.find? (fun e => joined base e.name == joined base (dirname ++ Dir.slash ++ n)) with
      | none =>
        have := List.find?_eq_none.1 hfind (entryOf p) (List.mem_reverse.2 (List.mem_map_of_mem hp))
        rw [hnm p hp, hpn] at this
        simp at this
      | some e =>
        obtain ⟨p', hp', rfl⟩ := List.mem_map.1 (List.mem_reverse.1 (List.mem_of_find?_eq_some hfind))
        have h := List.find?_some hfind
        rw [hnm p' hp', beq_iff_eq, joined, joined] at h
        have := List.append_cancel_left (List.append_cancel_left h)
        show some (contents (nameOf p')) = _
        rw [this]
    · rw [k2, contentsAt, List.find?_eq_none.2]
      intro e he
      obtain ⟨p, hp, rfl⟩ := List.mem_map.1 (List.mem_reverse.1 he)
      rw [hnm p hp]
      have := hq _ (hptr p hp).1
      exact fun h => this (beq_iff_eq.1 h).symm

/-- **C139 fails** for every folder that has a folder in it, at any depth: the folder is on the list of files, opening it succeeds and reading from it does not, so the archive is never
completed and the result is an error. -/
theorem C139_subfolder_fails (pf : FloatPrinter) (buf : List Byte) (fs : List Byte → Opened) (before : Bool) (dirname : List Byte) {es : List (Dir.Name × Dir.Node)} (ht : Dir.TameEntries es)
    (hline : ∀ p, Dir.Below true es p → Line (Dir.spell dirname p) ∧ (Dir.spell dirname p).getLast? ≠ some 13#8) {p : List Dir.Name} (hp : Dir.Below true es p)
    {size : Int} {mt : BitVec 64} (hfs : fs (Dir.spell dirname p) = .folder size mt) (handles : Nat) (archive a : File) (h' : Nat) :
    packDir pf buf fs before dirname (.folder true es) handles archive ≠ .ok ((a, 0), h') := by
  intro h
  obtain ⟨o, ptrs, block, h1, h2, h3, h4⟩ := listing_blocks before dirname (.folder true es) (by unfold Dir.Node.Tame; exact ht) rfl handles
    (fun p hp => (hline p ((Dir.C121_complete true es p).1 hp)).1) (fun p hp => (hline p ((Dir.C121_complete true es p).1 hp)).2)
  rw [packDir, h1, except_ok_bind, h2, except_ok_bind] at h
  dsimp only at h
  cases hr : pack pf buf (fun p => fs (p.takeWhile (· ≠ 0))) archive (ptrs.map fun p => block.drop p) with
  | error e => rw [hr] at h; cases h
  | ok r =>
    rw [hr, except_ok_bind] at h
    obtain rfl : r = (a, 0) := (Prod.mk.inj (Except.ok.inj h)).1
    have hm : Dir.spell dirname p ∈ ptrs.map (cstringAt block) := by
      rw [h3]; exact List.mem_map_of_mem ((Dir.C121_complete true es p).2 hp)
    obtain ⟨x, hx, e⟩ := List.mem_map.1 hm
    obtain ⟨src, mt', hsrc⟩ := pack_all_files pf buf _ _ _ _ hr (block.drop x) (List.mem_map_of_mem hx)
    have : fs ((block.drop x).takeWhile (· ≠ 0)) = .file src mt' := hsrc
    rw [show (block.drop x).takeWhile (· ≠ 0) = Dir.spell dirname p from e, hfs] at this
    cases this

/-! ### The theorems are not vacuous -/

/-- A folder `d` with the files `a` and `b`, of which `b` is empty. -/
def exEntries : List (Dir.Name × Dir.Node) := [(Dir.dot, .link true), ([0x61#8], .file), (Dir.dotdot, .link true), ([0x62#8], .file)]

def exContents (n : Dir.Name) : List Byte := if n = [0x61#8] then [1#8, 2#8] else []

theorem exHolds (n : Dir.Name) (h : Holds exEntries n) : n = [0x61#8] ∨ n = [0x62#8] := by
  obtain ⟨⟨k, hk⟩, h1, h2⟩ := h
  simp only [exEntries, List.mem_cons, List.not_mem_nil, or_false, Prod.mk.injEq] at hk
  rcases hk with h | h | h | h
  · exact absurd h.1 h1
  · exact .inl h.1
  · exact absurd h.1 h2
  · exact .inr h.1

example : Holds exEntries [0x61#8] := ⟨⟨.file, by simp [exEntries]⟩, by decide, by decide⟩

example (pf : FloatPrinter) {buf : List Byte} (hbuf : buf.length = 65536) (d : Disk) :
    ∃ archive' handles', packDir pf buf (fun q => .file (exContents (q.drop 2)) 7#64) true [0x64#8] (.folder true exEntries) 0 ⟨[], 0⟩ = .ok ((archive', 0), handles') ∧
      (archive'.bytes.length < 2 ^ 62 → ∀ fuel, 4 < fuel → ∃ d', unpackDir 4096 fuel { archive' with pos := 0 } [0x78#8, 0] d = .ok (d', 0) ∧
        (∀ n, Holds exEntries n → d'.files (joined [0x78#8] ([0x64#8] ++ Dir.slash ++ n)) = some (exContents n)) ∧
        ∀ q, (∀ n, Holds exEntries n → q ≠ joined [0x78#8] ([0x64#8] ++ Dir.slash ++ n)) → d'.files q = d.files q) := by
  refine C139_folder_partial pf hbuf _ true (by unfold Line; decide) (by decide) (es := exEntries) ?_ ?_ exContents (fun _ => 7#64) ?_ ?_ 0 (by simp) (base := [0x78#8]) (by unfold Text; decide) [] (by simp) d
  · simp [exEntries, Dir.TameEntries, Dir.Node.Tame, Text, Dir.dot, Dir.dotdot]
  · intro n k h h1 h2
    simp only [exEntries, List.mem_cons, List.not_mem_nil, or_false, Prod.mk.injEq] at h
    rcases h with h | h | h | h
    · exact absurd h.1 h1
    · exact h.2
    · exact absurd h.1 h2
    · exact h.2
  · intro n h
    rcases exHolds n h with rfl | rfl <;> exact ⟨rfl, by decide, by decide⟩
  · intro n h
    rcases exHolds n h with rfl | rfl <;> exact ⟨by decide, by decide, by unfold Line; decide, by decide, by decide⟩

/-- A folder in the folder. -/
example (pf : FloatPrinter) (buf : List Byte) (a : File) (h' : Nat) :
    packDir pf buf (fun q => if q = [0x64#8, 0x2f#8, 0x61#8] then .folder 4096 7#64 else .file [] 7#64) true [0x64#8] (.folder true [([0x61#8], .folder true [])]) 0 ⟨[], 0⟩ ≠ .ok ((a, 0), h') := by
  refine C139_subfolder_fails pf buf _ true [0x64#8] (by simp [Dir.TameEntries, Dir.Node.Tame, Text, Dir.dotdot]) ?_ (p := [[0x61#8]]) (.here (List.mem_singleton.2 rfl) (by decide) (by decide)) (if_pos rfl) 0 _ a h'
  intro p hp
  have : p = [[0x61#8]] := by
    cases hp with
    | here h _ _ => simp at h; rw [h.1]
    | deeper _ h _ _ hb =>
      simp at h
      obtain ⟨_, rfl⟩ := h
      cases hb with
      | here h _ _ => cases h
      | deeper _ h _ _ _ => cases h
  subst this
  exact ⟨by unfold Line; decide, by decide⟩

end Zpl.Tar
