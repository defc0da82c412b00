import Verif.Sys.File
import Verif.Sys.Path

/-!
# Listing folders (code/source/core/file_misc.c:274-297, 346-375, 424-445)  -  C121, C122

The Linux branches.  A folder is the list of what `readdir` gives for it, which includes `.` and `..`, in whatever order.  Simplifications: the listing is made at one moment (nothing
changes meanwhile); strings that grow are lists of bytes (C19 - C23 are about `zpl_string`) and allocation succeeds; a folder that is reached through a link is not listed itself. -/

namespace Zpl.Dir

open Zpl.Str

abbrev Name := List Byte

/-- What a name in a folder denotes.  `opens` says whether `opendir` succeeds. -/
inductive Node where
  | file
  | folder (opens : Bool) (entries : List (Name × Node))
  /-- a link; to a folder that can be opened, or to something else -/
  | link (opens : Bool)

/-- `"/"` -/
def slash : List Byte := [0x2f#8]
/-- `"\n"` -/
def newline : List Byte := [0x0a#8]
/-- `".."` -/
def dotdot : List Byte := [0x2e#8, 0x2e#8]
/-- `"."` -/
def dot : List Byte := [0x2e#8]

/-! ## Model -/

/-- What the listing works on: the text so far, and the number of folders opened and not closed. -/
structure Out where
  text : List Byte
  handles : Nat
  deriving DecidableEq, Repr

/-- file_misc.c:283-284: is the entry passed over?  `before` is the order of the two texts in memory, on which the sign of `zpl_strncmp` depends. -/
def skipped (before : Bool) (name : Name) : Except Fault Bool := do
  let r ← strncmp before (name ++ [0]) (dotdot ++ [0]) 2
  if r = 0 then .ok true
  else do
    let c ← rd (name ++ [0]) 0
    if c = 0x2e#8 then do
      let c ← rd (name ++ [0]) 1
      .ok (c == 0)
    else .ok false

/-- `opendir` succeeds. -/
def Node.canOpen : Node → Bool
  | .file => false
  | .folder b _ => b
  | .link b => b

/-- `d_type == DT_DIR` -/
def Node.isFolder : Node → Bool
  | .folder _ _ => true
  | _ => false

mutual
/-- file_misc.c:274-297 `zpl__file_direntry` -/
def direntry (before recurse : Bool) (dirname : List Byte) : Node → Out → Except Fault Out
  | .file, o => .ok o
  | .folder opens es, o => if opens then entries before recurse dirname es { o with handles := o.handles + 1 } else .ok o
  | .link opens, o => if opens then .error .ub else .ok o
/-- file_misc.c:281-296, the loop over `readdir` -/
def entries (before recurse : Bool) (dirname : List Byte) : List (Name × Node) → Out → Except Fault Out
  | [], o => .ok o
  | (n, k) :: es, o => do
    if ← skipped before n then entries before recurse dirname es o
    else do
      let dirpath := dirname ++ slash ++ n
      let o := { o with text := o.text ++ dirpath ++ newline }
      let o := if recurse && k.canOpen then { o with handles := o.handles + 1 } else o
      (if recurse && k.canOpen && k.isFolder then direntry before recurse dirpath k o else .ok o) >>= entries before recurse dirname es
end

/-- file_misc.c:346-350 `zpl_path_dirlist` -/
def dirlist (before recurse : Bool) (dirname : List Byte) (k : Node) (handles : Nat) : Except Fault Out := direntry before recurse dirname k ⟨[], handles⟩

/-- What `zpl_dirinfo_init` fills in: the block behind `fullpath`, and name and type of the entries. -/
structure Info where
  fullpath : List Byte
  entries : List (List Byte × File.DirType)

/-- file_misc.c:352-375 `zpl_dirinfo_init`: `junk` is what the block of `zpl_strlen(path)` bytes holds, `type` what the system says about a path. -/
def dirinfoInit (before : Bool) (type : List Byte → File.DirType) (junk : Nat → Byte) (path : List Byte) (k : Node) (handles : Nat) : Except Fault (Info × Nat) := do
  let n ← strlen path
  let fullpath ← Copy.strcpy ((List.range n).map junk) path
  let o ← dirlist before false (path.take n) k handles
  let (ptrs, block) ← splitLines false (o.text ++ [0])
  .ok (⟨fullpath, ptrs.map fun p => (cstringAt block p, type (cstringAt block p))⟩, o.handles)

/-- file_misc.c:434-442, in `zpl_dirinfo_step` for an entry that is not a folder: `buf` is the static buffer of 128 bytes.  The text found in it, and the buffer.  Without a
separator `slash-path` is the difference of NULL and a pointer. -/
def folderOf (buf path : List Byte) : Except Fault (List Byte × List Byte) := do
  match ← lastOcc Path.sep path with
  | none => .error .ub
  | some k => do
    let buf ← strncpy buf path k
    let t ← Path.textAt buf
    .ok (t, buf)

/-! ## Specification -/

/-- `p` is the path, relative to a folder with the entries `es`, of something in it or - if `recurse` - in a folder that can be opened below it. -/
inductive Below (recurse : Bool) : List (Name × Node) → List Name → Prop
  | here {es n k} : (n, k) ∈ es → n ≠ dot → n ≠ dotdot → Below recurse es [n]
  | deeper {es n sub p} : recurse = true → (n, .folder true sub) ∈ es → n ≠ dot → n ≠ dotdot → Below recurse sub p → Below recurse es (n :: p)

/-- A path as a text. -/
def spell (dirname : List Byte) (p : List Name) : List Byte := dirname ++ p.flatMap (slash ++ ·)

mutual
/-- The paths in a folder, each folder before what is in it. -/
def preorder (recurse : Bool) : Node → List (List Name)
  | .folder true es => inside recurse es
  | _ => []
def inside (recurse : Bool) : List (Name × Node) → List (List Name)
  | [] => []
  | (n, k) :: es => (if n = dot ∨ n = dotdot then [] else [n] :: (if recurse then (preorder recurse k).map (n :: ·) else [])) ++ inside recurse es
end

mutual
/-- Every name in a folder is a text that a folder can hold: without NUL and slash, not empty; and only `..` itself begins with two dots. -/
def Node.Tame : Node → Prop
  | .folder _ es => TameEntries es
  | _ => True
def TameEntries : List (Name × Node) → Prop
  | [] => True
  | (n, k) :: es => (Text n ∧ (n.take 2 = dotdot → n = dotdot)) ∧ k.Tame ∧ TameEntries es
end

mutual
/-- How many folders are opened for a listing. -/
def opened (recurse : Bool) : Node → Nat
  | .folder true es => 1 + openedIn recurse es
  | _ => 0
def openedIn (recurse : Bool) : List (Name × Node) → Nat
  | [] => 0
  | (n, k) :: es => (if n = dot ∨ n = dotdot ∨ recurse = false then 0 else (if k.canOpen then 1 else 0) + opened recurse k) + openedIn recurse es
end

/-! ## C121 -/

theorem skipped_ok (before : Bool) {n : Name} (hn : Text n) (ht : n.take 2 = dotdot → n = dotdot) : skipped before n = .ok (decide (n = dot ∨ n = dotdot)) := by
  obtain ⟨r, e, h⟩ := C29_strncmp before hn (t := dotdot) (by unfold Text; decide) [] [] 2
  unfold skipped
  rw [e]
  simp only [except_ok_bind]
  by_cases hd : n = dotdot
  · have : r = 0 := h.2 (by rw [hd])
    rw [if_pos this, decide_eq_true (.inr hd)]
  · have : r ≠ 0 := fun h0 => hd (ht (h.1 h0))
    rw [if_neg this]
    cases n with
    | nil => simp [rd, dot, dotdot]
    | cons c n =>
      by_cases hc : c = 0x2e#8
      · subst hc
        cases n with
        | nil => simp [rd, dot, dotdot]
        | cons d n =>
          have hd0 : d ≠ 0 := hn d (by simp)
          have : ¬ ((0x2e#8 :: d :: n) = dot ∨ (0x2e#8 :: d :: n) = dotdot) := by
            rintro (h | h)
            · cases h
            · exact hd h
          simp only [rd, List.cons_append, List.getElem?_cons_zero, List.getElem?_cons_succ, except_ok_bind, if_true, decide_eq_false this]
          simpa using hd0
      · have : ¬ ((c :: n) = dot ∨ (c :: n) = dotdot) := by
          rintro (h | h)
          · cases h; exact hc rfl
          · cases h; exact hc rfl
        simp [rd, hc, this]

theorem spell_cons (d : List Byte) (n : Name) (p : List Name) : spell d (n :: p) = spell (d ++ slash ++ n) p := by simp [spell]

theorem unlines_append (a b : List (List Byte)) : unlines (a ++ b) = unlines a ++ unlines b := by simp [unlines]

mutual
theorem direntry_ok (before recurse : Bool) : ∀ (k : Node) (d : List Byte) (o : Out), k.Tame → k.isFolder = true →
    direntry before recurse d k o = .ok ⟨o.text ++ unlines ((preorder recurse k).map (spell d)), o.handles + opened recurse k⟩
  | .file, d, o, _, h => by cases h
  | .link b, d, o, _, h => by cases h
  | .folder false es, d, o, _, _ => by simp [direntry, preorder, opened, unlines]
  | .folder true es, d, o, ht, _ => by
    unfold Node.Tame at ht
    simp only [direntry, preorder, opened, if_true]
    rw [entries_ok before recurse es d _ ht]
    simp [Nat.add_assoc]
theorem entries_ok (before recurse : Bool) : ∀ (es : List (Name × Node)) (d : List Byte) (o : Out), TameEntries es →
    entries before recurse d es o = .ok ⟨o.text ++ unlines ((inside recurse es).map (spell d)), o.handles + openedIn recurse es⟩
  | [], d, o, _ => by simp [entries, inside, openedIn, unlines]
  | (n, k) :: es, d, o, ht => by
    unfold TameEntries at ht
    obtain ⟨⟨hn, hdd⟩, hk, hes⟩ := ht
    unfold entries
    rw [skipped_ok before hn hdd]
    simp only [except_ok_bind]
    by_cases hs : n = dot ∨ n = dotdot
    · rw [decide_eq_true hs, if_pos rfl, entries_ok before recurse es d o hes]
      have : n = dot ∨ n = dotdot ∨ recurse = false := by rcases hs with h | h; exact .inl h; exact .inr (.inl h)
      simp [inside, openedIn, hs, this]
    · rw [decide_eq_false hs, if_neg (by decide)]
      have sub : (if (recurse && k.canOpen && k.isFolder) = true then direntry before recurse (d ++ slash ++ n) k
            (if (recurse && k.canOpen) = true then ⟨o.text ++ (d ++ slash ++ n) ++ newline, o.handles + 1⟩ else ⟨o.text ++ (d ++ slash ++ n) ++ newline, o.handles⟩)
          else .ok (if (recurse && k.canOpen) = true then ⟨o.text ++ (d ++ slash ++ n) ++ newline, o.handles + 1⟩ else ⟨o.text ++ (d ++ slash ++ n) ++ newline, o.handles⟩)) =
          .ok ⟨o.text ++ unlines (([n] :: (if recurse then (preorder recurse k).map (n :: ·) else [])).map (spell d)),
            o.handles + (if recurse = false then 0 else (if k.canOpen then 1 else 0) + opened recurse k)⟩ := by
        have e1 : spell d [n] ++ [10#8] = (d ++ slash ++ n) ++ newline := by simp [spell, newline]
        have e2 : ((preorder recurse k).map (n :: ·)).map (spell d) = (preorder recurse k).map (spell (d ++ slash ++ n)) := by
          rw [List.map_map]
          apply List.map_congr_left
          intro p _
          exact spell_cons d n p
        have e3 : ∀ l, unlines (spell d [n] :: l) = (d ++ slash ++ n) ++ newline ++ unlines l := by
          intro l
          simp only [unlines, List.flatMap_cons, e1]
        cases recurse with
        | false => simp [unlines, e1]
        | true =>
          simp only [Bool.true_and, if_true, List.map_cons, e2, e3, Bool.true_eq_false, if_false]
          cases hf : k.isFolder with
          | true =>
            cases ho : k.canOpen with
            | true =>
              simp only [Bool.and_true, if_true]
              rw [direntry_ok before true k _ _ hk hf]
              simp [Nat.add_assoc]
            | false =>
              have hp : preorder true k = [] ∧ opened true k = 0 := by
                cases k with
                | file => cases hf
                | link b => cases hf
                | folder b es =>
                  simp only [Node.canOpen] at ho
                  subst ho
                  simp [preorder, opened]
              simp [hp, unlines]
          | false =>
            have hp : preorder true k = [] ∧ opened true k = 0 := by
              cases k with
              | file => simp [preorder, opened]
              | link b => simp [preorder, opened]
              | folder b es => cases hf
            cases ho : k.canOpen <;> simp [hp, unlines]
      simp only [List.append_assoc] at sub ⊢
      rw [sub]
      simp only [except_ok_bind]
      rw [entries_ok before recurse es d _ hes]
      have hs' : (n = dot ∨ n = dotdot ∨ recurse = false) ↔ recurse = false := by
        constructor
        · rintro (h | h | h)
          · exact absurd (.inl h) hs
          · exact absurd (.inr h) hs
          · exact h
        · exact fun h => .inr (.inr h)
      simp only [inside, openedIn, hs, hs', if_false, List.map_append, unlines_append, List.append_assoc, Nat.add_assoc]
end

/-- C121.  The listing of a folder is the text of the paths in it, one per line, a folder before what is in it; `recurse` says whether the folders in it are listed too (links are
not followed).  For trees in which no name but `..` begins with two dots. -/
theorem C121_listing_partial (before recurse : Bool) (dirname : List Byte) (k : Node) (h : k.Tame) (hf : k.isFolder = true) (handles : Nat) :
    ∃ o, dirlist before recurse dirname k handles = .ok o ∧ o.text = unlines ((preorder recurse k).map (spell dirname)) := by
  refine ⟨_, direntry_ok before recurse k dirname _ h hf, ?_⟩
  simp

mutual
theorem mem_preorder (recurse : Bool) : ∀ (k : Node) (p : List Name), p ∈ preorder recurse k ↔ ∃ es, k = .folder true es ∧ Below recurse es p
  | .file, p => by simp [preorder]
  | .link _, p => by simp [preorder]
  | .folder false es, p => by simp [preorder]
  | .folder true es, p => by simp [preorder, mem_inside recurse es p]
theorem mem_inside (recurse : Bool) : ∀ (es : List (Name × Node)) (p : List Name), p ∈ inside recurse es ↔ Below recurse es p
  | [], p => by
    simp only [inside, List.not_mem_nil, false_iff]
    rintro (⟨h, -, -⟩ | ⟨-, h, -, -, -⟩) <;> simp at h
  | (n, k) :: es, p => by
    unfold inside
    rw [List.mem_append, mem_inside recurse es p]
    have weaken : Below recurse es p → Below recurse ((n, k) :: es) p := by
      rintro (⟨h, a, b⟩ | ⟨r, h, a, b, c⟩)
      · exact .here (List.mem_cons_of_mem _ h) a b
      · exact .deeper r (List.mem_cons_of_mem _ h) a b c
    constructor
    · rintro (h | h)
      · by_cases hs : n = dot ∨ n = dotdot
        · simp [hs] at h
        · rw [if_neg hs] at h
          have h1 : n ≠ dot := fun h => hs (.inl h)
          have h2 : n ≠ dotdot := fun h => hs (.inr h)
          rcases List.mem_cons.1 h with rfl | h
          · exact .here (List.mem_cons_self ..) h1 h2
          · cases recurse with
            | false => simp at h
            | true =>
              simp only [if_true, List.mem_map] at h
              obtain ⟨q, hq, rfl⟩ := h
              obtain ⟨sub, rfl, hb⟩ := (mem_preorder true k q).1 hq
              exact .deeper rfl (List.mem_cons_self ..) h1 h2 hb
      · exact weaken h
    · rintro (⟨h, a, b⟩ | ⟨r, h, a, b, c⟩)
      · rename_i n' k'
        rcases List.mem_cons.1 h with h | h
        · cases h
          left
          rw [if_neg (by rintro (h | h); exact a h; exact b h)]
          simp
        · exact .inr (.here h a b)
      · rename_i n' sub q
        rcases List.mem_cons.1 h with h | h
        · cases h
          left
          rw [if_neg (by rintro (h | h); exact a h; exact b h)]
          subst r
          simp only [if_true]
          exact List.mem_cons_of_mem _ (List.mem_map.2 ⟨q, (mem_preorder true _ q).2 ⟨sub, rfl, c⟩, rfl⟩)
        · exact .inr (.deeper r h a b c)
end

/-- C121.  What is listed is what is there: a path is on the list exactly when it leads, through folders that can be opened if `recurse` is set, to an entry other than `.` and `..`. -/
theorem C121_complete (recurse : Bool) (es : List (Name × Node)) (p : List Name) : p ∈ preorder recurse (.folder true es) ↔ Below recurse es p := by
  rw [mem_preorder]
  simp

mutual
/-- No folder has the same name twice. -/
def Node.Distinct : Node → Prop
  | .folder _ es => DistinctEntries es
  | _ => True
def DistinctEntries : List (Name × Node) → Prop
  | [] => True
  | (n, k) :: es => (∀ e ∈ es, e.1 ≠ n) ∧ k.Distinct ∧ DistinctEntries es
end

mutual
theorem nodup_preorder (recurse : Bool) : ∀ (k : Node), k.Distinct → (preorder recurse k).Nodup
  | .file, _ => by simp [preorder]
  | .link _, _ => by simp [preorder]
  | .folder false _, _ => by simp [preorder]
  | .folder true es, h => by
    unfold Node.Distinct at h
    rw [preorder]
    exact nodup_inside recurse es h
theorem nodup_inside (recurse : Bool) : ∀ (es : List (Name × Node)), DistinctEntries es → (inside recurse es).Nodup
  | [], _ => by simp [inside]
  | (n, k) :: es, h => by
    unfold DistinctEntries at h
    obtain ⟨h1, h2, h3⟩ := h
    have ne : ∀ p ∈ preorder recurse k, p ≠ [] := by
      intro p hp
      obtain ⟨sub, -, hb⟩ := (mem_preorder recurse k p).1 hp
      cases hb <;> simp
    have later : ∀ p ∈ inside recurse es, p.head? ≠ some n := by
      intro p hp
      have := (mem_inside recurse es p).1 hp
      cases this with
      | here h _ _ => intro e; cases e; exact h1 _ h rfl
      | deeper _ h _ _ _ => intro e; cases e; exact h1 _ h rfl
    unfold inside
    rw [List.nodup_append]
    refine ⟨?_, nodup_inside recurse es h3, ?_⟩
    · by_cases hs : n = dot ∨ n = dotdot
      · simp [hs]
      · rw [if_neg hs]
        cases recurse with
        | false => simp
        | true =>
          simp only [if_true]
          rw [List.nodup_cons]
          constructor
          · intro hm
            obtain ⟨q, hq, e⟩ := List.mem_map.1 hm
            simp only [List.cons.injEq, true_and] at e
            exact ne q hq e
          · have := nodup_preorder true k h2
            rw [List.nodup_iff_pairwise_ne] at this ⊢
            exact List.Pairwise.map _ (fun a b hab he => hab (by simpa using he)) this
    · intro p hp q hq e
      subst e
      apply later p hq
      by_cases hs : n = dot ∨ n = dotdot
      · simp [hs] at hp
      · rw [if_neg hs] at hp
        rcases List.mem_cons.1 hp with rfl | hp
        · rfl
        · cases recurse with
          | false => simp at hp
          | true =>
            simp only [if_true, List.mem_map] at hp
            obtain ⟨r, -, rfl⟩ := hp
            rfl
end

/-- C121.  Nothing is listed twice, if no folder has a name twice. -/
theorem C121_once (recurse : Bool) (k : Node) (h : k.Distinct) : (preorder recurse k).Nodup := nodup_preorder recurse k h

/-- C121, where it fails: an entry whose name begins with two dots is passed over, and all that is below it. -/
theorem C121_dotted_names_missing (before recurse : Bool) (dirname rest : List Byte) (hr : Text rest) (k : Node) (handles : Nat) :
    dirlist before recurse dirname (.folder true [(dotdot ++ rest, k)]) handles = .ok ⟨[], handles + 1⟩ := by
  obtain ⟨r, e, h⟩ := C29_strncmp before (s := dotdot ++ rest) (t := dotdot) (by
    intro c hc
    rcases List.mem_append.1 hc with h | h
    · have : c ∈ [0x2e#8, 0x2e#8] := h
      simp at this
      subst this
      decide
    · exact hr c h) (by unfold Text; decide) [] [] 2
  have : r = 0 := h.2 (by simp [dotdot])
  subst this
  unfold dirlist direntry entries skipped
  rw [e]
  simp [entries, except_ok_bind]

/-- C121, where it fails: no folder that is opened is ever closed.  A listing leaves as many open as it opened: at least one, and with `recurse` two more for every folder below
(one for the test and one for the listing). -/
theorem C121_handles_leak (before recurse : Bool) (dirname : List Byte) (es : List (Name × Node)) (h : TameEntries es) (handles : Nat) :
    ∃ o, dirlist before recurse dirname (.folder true es) handles = .ok o ∧ o.handles = handles + 1 + openedIn recurse es := by
  refine ⟨_, direntry_ok before recurse (.folder true es) dirname _ (by unfold Node.Tame; exact h) rfl, ?_⟩
  simp [opened]
  omega

/-- C121.  The lines of a listing are the paths: for names without line breaks. -/
theorem C121_lines (before recurse : Bool) (dirname : List Byte) (k : Node) (h : k.Tame) (hf : k.isFolder = true) (handles : Nat) (hp : ∀ p ∈ preorder recurse k, Line (spell dirname p))
    (hcr : ∀ p ∈ preorder recurse k, (spell dirname p).getLast? ≠ some 13#8) :
    ∃ o ptrs block, dirlist before recurse dirname k handles = .ok o ∧ splitLines false (o.text ++ [0]) = .ok (ptrs, block) ∧
      ptrs.map (cstringAt block) = (preorder recurse k).map (spell dirname) := by
  obtain ⟨o, h1, h2⟩ := C121_listing_partial before recurse dirname k h hf handles
  obtain ⟨ptrs, block, h3, h4, -⟩ := C32_split_lines_partial false ((preorder recurse k).map (spell dirname)) [] (by
      intro l hl
      obtain ⟨p, hp', rfl⟩ := List.mem_map.1 hl
      exact hp p hp') (by
      cases e : preorder recurse k with
      | nil => simp
      | cons p ps =>
        obtain ⟨es, -, hb⟩ := (mem_preorder recurse k p).1 (by rw [e]; simp)
        cases hb <;> simp [spell, slash])
  refine ⟨o, ptrs, block, h1, by rw [h2]; exact h3, ?_⟩
  rw [h4]
  simp only [Bool.false_eq_true, if_false]
  rw [List.map_map]
  apply List.map_congr_left
  intro p hp'
  simp [chomp, hcr p hp']

/-- A folder with a file, a folder with a file in it, and a link; `.` and `..` in between. -/
def exNode : Node :=
  .folder true [(dot, .link true), ([0x61#8], .file), ([0x62#8], .folder true [(dotdot, .link true), (dot, .link true), ([0x63#8], .file)]), (dotdot, .link true), ([0x64#8], .link true)]

/-- The hypotheses are met; `a`, `b`, `b/c`, `d` are listed and five folders stay open. -/
example : exNode.Tame ∧ exNode.Distinct ∧ exNode.isFolder = true ∧ preorder true exNode = [[[0x61#8]], [[0x62#8]], [[0x62#8], [0x63#8]], [[0x64#8]]] ∧ opened true exNode = 4 ∧
    opened false exNode = 1 ∧ spell [0x78#8] [[0x62#8], [0x63#8]] = [0x78#8, 0x2f#8, 0x62#8, 0x2f#8, 0x63#8] := by
  refine ⟨?_, ?_, rfl, ?_, ?_, ?_, rfl⟩
  · simp [exNode, Node.Tame, TameEntries, Text, dot, dotdot]
  · simp [exNode, Node.Distinct, DistinctEntries, dot, dotdot]
  · simp [exNode, preorder, inside, dot, dotdot]
  · simp [exNode, opened, openedIn, Node.canOpen, dot, dotdot]
  · simp [exNode, opened, openedIn, dot, dotdot]

/-! ## C122: descriptions of folders -/

/-- file_misc.c:416-420, in `zpl_fs_get_type`: the mode that `stat` gives is tested against `S_IFDIR` as a set of bits. -/
def typeOfMode (mode : BitVec 32) : File.DirType := if mode &&& 0x4000#32 ≠ 0 then .folder else .file

/-- inode(7): what the bits 12 to 15 of a mode stand for. -/
inductive Kind where
  | socket | link | regular | blockDevice | folder | charDevice | fifo
  deriving DecidableEq, Repr

/-- inode(7) -/
def Kind.bits : Kind → BitVec 32
  | .socket => 0xc000#32
  | .link => 0xa000#32
  | .regular => 0x8000#32
  | .blockDevice => 0x6000#32
  | .folder => 0x4000#32
  | .charDevice => 0x2000#32
  | .fifo => 0x1000#32

/-- C122, `zpl_fs_get_type`.  Whatever the permission bits are, folders are folders, and regular files, links, character devices and pipes are not.  Missing: block devices and
sockets (`C122_socket_is_folder`). -/
theorem C122_type_partial (mode : BitVec 32) (k : Kind) (h : mode &&& 0xf000#32 = k.bits) (hk : k ≠ .socket) (hb : k ≠ .blockDevice) :
    typeOfMode mode = .folder ↔ k = .folder := by
  have : mode &&& 0x4000#32 = k.bits &&& 0x4000#32 := by
    rw [← h, BitVec.and_assoc]
    congr 1
  unfold typeOfMode
  rw [this]
  cases k <;> first | exact absurd rfl hk | exact absurd rfl hb | decide

/-- C122, where it fails: every socket and every block device passes for a folder. -/
theorem C122_socket_is_folder (mode : BitVec 32) (h : mode &&& 0xf000#32 = Kind.socket.bits ∨ mode &&& 0xf000#32 = Kind.blockDevice.bits) : typeOfMode mode = .folder := by
  have : mode &&& 0x4000#32 = 0x4000#32 := by
    have e : mode &&& 0x4000#32 = (mode &&& 0xf000#32) &&& 0x4000#32 := by
      rw [BitVec.and_assoc]
      congr 1
    rw [e]
    rcases h with h | h <;> rw [h] <;> decide
  unfold typeOfMode
  rw [this]
  decide

example : typeOfMode 0o40755#32 = .folder ∧ typeOfMode 0o100644#32 = .file ∧ (0o140755#32 &&& 0xf000#32) = Kind.socket.bits := by decide

/-- C122.  The description of a folder has one entry for every entry of the folder other than `.` and `..`, with its path and with what the system says it is.  Missing: names
that begin with two dots or have line breaks in them (as in C121), and the path of the folder itself (`C122_fullpath_not_terminated`). -/
theorem C122_entries_partial (before : Bool) (type : List Byte → File.DirType) (junk : Nat → Byte) (path rest : List Byte) (hpath : Text path) (k : Node) (h : k.Tame)
    (hf : k.isFolder = true) (handles : Nat) (hp : ∀ p ∈ preorder false k, Line (spell path p)) (hcr : ∀ p ∈ preorder false k, (spell path p).getLast? ≠ some 13#8) :
    ∃ info n, dirinfoInit before type junk (path ++ 0 :: rest) k handles = .ok (info, n) ∧
      info.entries = ((preorder false k).map (spell path)).map fun s => (s, type s) := by
  obtain ⟨o, ptrs, block, h1, h2, h3⟩ := C121_lines before false path k h hf handles hp hcr
  have hc : Copy.strcpy ((List.range path.length).map junk) (path ++ 0 :: rest) = .ok (path ++ ((List.range path.length).map junk).drop path.length) :=
    Copy.copyText_ok hpath rest _ (by simp)
  refine ⟨⟨path ++ ((List.range path.length).map junk).drop path.length, ptrs.map fun p => (cstringAt block p, type (cstringAt block p))⟩, o.handles, ?_, ?_⟩
  · unfold dirinfoInit
    rw [strlen_ok hpath rest]
    simp only [except_ok_bind]
    rw [hc]
    simp only [except_ok_bind, List.take_left]
    rw [h1]
    simp only [except_ok_bind]
    rw [h2]
    simp only [except_ok_bind]
  · dsimp only
    rw [← h3, List.map_map]
    rfl

/-- C122, where it fails, for every folder: the block behind `fullpath` has no room for the terminator, and reading it as a text runs over its end. -/
theorem C122_fullpath_not_terminated (before : Bool) (type : List Byte → File.DirType) (junk : Nat → Byte) (path rest : List Byte) (hpath : Text path) (k : Node) (handles n : Nat) (info : Info)
    (h : dirinfoInit before type junk (path ++ 0 :: rest) k handles = .ok (info, n)) : info.fullpath = path ∧ strlen info.fullpath = .error .oob := by
  have hc : Copy.strcpy ((List.range path.length).map junk) (path ++ 0 :: rest) = .ok path := by
    have := Copy.copyText_ok hpath rest ((List.range path.length).map junk) (by simp)
    rw [List.drop_of_length_le (by simp), List.append_nil] at this
    exact this
  have hl : ∀ s : List Byte, Text s → strlen s = .error .oob := by
    intro s hs
    induction s with
    | nil => rfl
    | cons c s ih =>
      have h1 : c ≠ 0 := hs c (by simp)
      have h2 := ih (fun x hx => hs x (by simp [hx]))
      simp only [strlen, ne_eq, h1, not_false_eq_true, if_true, h2]
      rfl
  unfold dirinfoInit at h
  rw [strlen_ok hpath rest] at h
  simp only [except_ok_bind] at h
  rw [hc] at h
  simp only [except_ok_bind] at h
  cases e1 : dirlist before false (List.take path.length (path ++ 0 :: rest)) k handles with
  | error _ => rw [e1] at h; cases h
  | ok o =>
    rw [e1] at h
    simp only [except_ok_bind] at h
    cases e2 : splitLines false (o.text ++ [0]) with
    | error _ => rw [e2] at h; cases h
    | ok r =>
      rw [e2] at h
      cases h
      exact ⟨rfl, hl path hpath⟩

/-- The text of `dir/name`. -/
def member (dir name : List Byte) : List Byte := dir ++ slash ++ name

theorem last_slash {dir name : List Byte} (hd : Text dir) (hn : Text name) (hs : 0x2f#8 ∉ name) (rest : List Byte) : lastOcc Path.sep (member dir name ++ 0 :: rest) = .ok (some dir.length) := by
  have ht : Text (member dir name) := by
    intro c hc
    simp only [member, slash, List.append_assoc, List.mem_append, List.mem_singleton] at hc
    rcases hc with h | h | h
    · exact hd c h
    · subst h; decide
    · exact hn c h
  obtain ⟨-, r, e, h, -⟩ := C29_occurrence ht rest Path.sep
  rw [e]
  congr 1
  refine (h dir.length).2 ⟨?_, ?_⟩
  · simp only [member, slash, List.append_assoc]
    rw [List.getElem?_append_right (Nat.le_refl _)]
    simp [Path.sep]
  · intro j hj hc
    simp only [member, List.append_assoc] at hc
    rw [List.getElem?_append_right (by omega)] at hc
    have : j - dir.length = (j - dir.length - 1) + 1 := by omega
    rw [this] at hc
    simp only [slash, List.cons_append, List.nil_append, List.getElem?_cons_succ] at hc
    have hm := List.mem_of_getElem? hc
    rcases List.mem_append.1 hm with h | h
    · exact hs h
    · simp [Path.sep] at h

theorem folderOf_eq {dir name : List Byte} (hd : Text dir) (hn : Text name) (hs : 0x2f#8 ∉ name) (rest buf : List Byte) (hb : dir.length ≤ buf.length) :
    folderOf buf (member dir name ++ 0 :: rest) = (do let t ← Path.textAt (dir ++ buf.drop dir.length); .ok (t, dir ++ buf.drop dir.length)) := by
  have ht : Text (member dir name) := by
    intro c hc
    simp only [member, slash, List.append_assoc, List.mem_append, List.mem_singleton] at hc
    rcases hc with h | h | h
    · exact hd c h
    · subst h; decide
    · exact hn c h
  unfold folderOf
  rw [last_slash hd hn hs rest]
  simp only [except_ok_bind]
  rw [C30_strncpy ht rest dir.length buf hb]
  have e1 : (member dir name).take dir.length = dir := by simp [member]
  have e2 : dir.length - (member dir name).length = 0 := by simp [member]
  rw [e1, e2]
  simp only [except_ok_bind, List.replicate_zero, List.append_nil]

/-- C122.  The folder of a file is found in its path, as long as the static buffer holds a NUL where the folder's name ends.  Missing: the second and all later calls, which find
there what an earlier call left (`C122_step_stale`), and names of 128 bytes and more (`C122_step_overrun`). -/
theorem C122_step_partial {dir name : List Byte} (hd : Text dir) (hn : Text name) (hs : 0x2f#8 ∉ name) (rest buf : List Byte) (hb : buf[dir.length]? = some 0) :
    ∃ buf', folderOf buf (member dir name ++ 0 :: rest) = .ok (dir, buf') ∧ buf'.length = buf.length := by
  have hl : dir.length < buf.length := by
    rcases Nat.lt_or_ge dir.length buf.length with h | h
    · exact h
    · rw [List.getElem?_eq_none h] at hb; cases hb
  refine ⟨dir ++ buf.drop dir.length, ?_, by simp; omega⟩
  rw [folderOf_eq hd hn hs rest buf (by omega)]
  have : buf.drop dir.length = 0 :: buf.drop (dir.length + 1) := by
    rw [List.drop_eq_getElem_cons hl]
    rw [List.getElem?_eq_getElem hl] at hb
    injection hb with hb
    rw [hb]
  rw [this]
  unfold Path.textAt
  rw [strlen_ok hd]
  simp [except_ok_bind]

/-- C122, where it fails: after a file in a folder with a longer name has been stepped into, the folder of a file is taken to be its name with the end of the longer name behind it. -/
theorem C122_step_stale {dir1 name1 dir2 name2 : List Byte} (h1 : Text dir1) (hn1 : Text name1) (hs1 : 0x2f#8 ∉ name1) (h2 : Text dir2) (hn2 : Text name2) (hs2 : 0x2f#8 ∉ name2)
    (rest1 rest2 : List Byte) (hlen : dir1.length < 128) (hlt : dir2.length < dir1.length) :
    ∃ buf1 buf2, folderOf (List.replicate 128 0) (member dir1 name1 ++ 0 :: rest1) = .ok (dir1, buf1) ∧
      folderOf buf1 (member dir2 name2 ++ 0 :: rest2) = .ok (dir2 ++ dir1.drop dir2.length, buf2) := by
  have e0 : (List.replicate 128 (0 : Byte)).drop dir1.length = 0 :: List.replicate (127 - dir1.length) 0 := by
    rw [List.drop_replicate, ← List.replicate_succ]
    congr 1
    omega
  refine ⟨dir1 ++ 0 :: List.replicate (127 - dir1.length) 0, dir2 ++ (dir1.drop dir2.length ++ 0 :: List.replicate (127 - dir1.length) 0), ?_, ?_⟩
  · rw [folderOf_eq h1 hn1 hs1 rest1 _ (by simp; omega), e0]
    unfold Path.textAt
    rw [strlen_ok h1]
    simp [except_ok_bind]
  · rw [folderOf_eq h2 hn2 hs2 rest2 _ (by simp; omega)]
    have e : (dir1 ++ 0 :: List.replicate (127 - dir1.length) 0).drop dir2.length = dir1.drop dir2.length ++ 0 :: List.replicate (127 - dir1.length) 0 := by
      rw [List.drop_append_of_le_length (by omega)]
    rw [e]
    have ht : Text (dir2 ++ dir1.drop dir2.length) := by
      intro c hc
      rcases List.mem_append.1 hc with h | h
      · exact h2 c h
      · exact h1 c (List.mem_of_mem_drop h)
    unfold Path.textAt
    rw [← List.append_assoc, strlen_ok ht]
    simp only [except_ok_bind, List.take_left]

/-- C122, where it fails: a path without a separator. -/
theorem C122_step_no_separator {name : List Byte} (hn : Text name) (hs : 0x2f#8 ∉ name) (rest buf : List Byte) : folderOf buf (name ++ 0 :: rest) = .error .ub := by
  obtain ⟨-, r, e, -, h⟩ := C29_occurrence hn rest Path.sep
  have : r = none := h.2 (by
    intro hm
    rcases List.mem_append.1 hm with h | h
    · exact hs h
    · simp [Path.sep] at h)
  unfold folderOf
  rw [e, this]
  rfl

theorem copyLoop_over : ∀ (d s : List Byte) (n : Nat), d.length < n → copyLoop n d s = .error .oob
  | [], s, 0, h => by simp at h
  | [], [], n + 1, _ => by simp [copyLoop]
  | [], c :: s, n + 1, _ => by
    by_cases hc : c = 0 <;> simp [copyLoop, hc, padLoop]
  | x :: d, [], n + 1, h => by simp [copyLoop]
  | x :: d, c :: s, 0, h => by simp at h
  | x :: d, [], 0, h => by simp at h
  | x :: d, c :: s, n + 1, h => by
    by_cases hc : c = 0
    · have pad : ∀ (n : Nat) (d : List Byte), d.length < n → padLoop n d = .error .oob := by
        intro n
        induction n with
        | zero => intro d h; omega
        | succ n ih =>
          intro d h
          cases d with
          | nil => rfl
          | cons x d => simp only [padLoop, ih d (by simpa using h)]; rfl
      simp only [copyLoop, hc, ne_eq, not_true_eq_false, if_false]
      exact pad _ _ h
    · simp only [copyLoop, ne_eq, hc, not_false_eq_true, if_true, copyLoop_over d s n (by simpa using h)]
      rfl

/-- C122, where it fails: a folder whose name has more than 128 bytes is written over the end of the buffer. -/
theorem C122_step_overrun {dir name : List Byte} (hd : Text dir) (hn : Text name) (hs : 0x2f#8 ∉ name) (rest buf : List Byte) (hb : buf.length = 128) (hl : 128 < dir.length) :
    folderOf buf (member dir name ++ 0 :: rest) = .error .oob := by
  unfold folderOf
  rw [last_slash hd hn hs rest]
  simp only [except_ok_bind]
  unfold strncpy
  rw [copyLoop_over _ _ _ (by omega)]
  rfl

/-- `aa/x` and then `b/x`: the folder of the second is taken to be `ba`. -/
example : ∃ b1 b2, folderOf (List.replicate 128 0) ([0x61#8, 0x61#8, 0x2f#8, 0x78#8] ++ [0]) = .ok ([0x61#8, 0x61#8], b1) ∧
    folderOf b1 ([0x62#8, 0x2f#8, 0x78#8] ++ [0]) = .ok ([0x62#8, 0x61#8], b2) := by
  have := C122_step_stale (dir1 := [0x61#8, 0x61#8]) (name1 := [0x78#8]) (dir2 := [0x62#8]) (name2 := [0x78#8]) (by unfold Text; decide) (by unfold Text; decide) (by decide)
    (by unfold Text; decide) (by unfold Text; decide) (by decide) [] [] (by decide) (by decide)
  exact this

end Zpl.Dir
