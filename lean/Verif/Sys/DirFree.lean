import Verif.Basic

/-!
# The memory of folder information (code/source/core/file_misc.c:352-394, 425-465, code/source/core/file.c:254-281)  -  C143

What is listed is the business of C121 and C122.  Here an entry is only whether it was stepped into, and every call is given the number of entries the system would list.  Strings and arrays are
one block each: that they grow by changing their block is C01 - C05 and C19 - C23, and the strings that are made and freed inside one call are left out.  Allocation succeeds. -/

namespace Zpl.DirFree

open Zpl

/-! ## Model -/

/-- The blocks that are allocated, and a number that no block has had. -/
structure Heap where
  live : List Nat
  next : Nat
  deriving DecidableEq, Repr

/-- `zpl_malloc` and the allocations of arrays and strings. -/
def malloc (h : Heap) : Nat × Heap := (h.next, ⟨h.next :: h.live, h.next + 1⟩)

/-- `zpl_mfree`, `zpl_array_free`, `zpl_string_free`. -/
def mfree (h : Heap) (b : Nat) : Except Fault Heap := if b ∈ h.live then .ok { h with live := h.live.erase b } else .error .ub

/-- file.h:88-95 `zpl_dir_info`: its four pointers. -/
structure Info where
  fullpath : Nat
  entries : Nat
  filenames : Nat
  buf : Nat
  deriving DecidableEq, Repr

/-- file.h:82-86: an array of `zpl_dir_entry`.  An entry that was stepped into has a block for its `zpl_dir_info`. -/
inductive Entries where
  | nil
  | plain (rest : Entries)
  | stepped (block : Nat) (info : Info) (sub rest : Entries)
  deriving DecidableEq, Repr

/-- An array of `n` entries, none of them stepped into. -/
def plains : Nat → Entries
  | 0 => .nil
  | n + 1 => .plain (plains n)

/-- file_misc.c:352-375 `zpl_dirinfo_init` of a folder with `n` entries. -/
def dirinfoInit (h : Heap) (n : Nat) : Info × Entries × Heap :=
  let (fullpath, h) := malloc h
  let (buf, h) := malloc h
  let (filenames, h) := malloc h
  let (entries, h) := malloc h
  (⟨fullpath, entries, filenames, buf⟩, plains n, h)

mutual
/-- file_misc.c:388-390: the loop of `zpl_dirinfo_free`, with 377-383 `zpl__dirinfo_free_entry`. -/
def freeEntries : Entries → Heap → Except Fault Heap
  | .nil, h => .ok h
  | .plain rest, h => freeEntries rest h
  | .stepped block info sub rest, h => do
    if block ∈ h.live then
      if info.entries ∈ h.live then
        let h ← freeEntries sub h
        let h ← freeInfo info h
        let h ← mfree h block
        freeEntries rest h
      else .error .ub
    else .error .ub
/-- file_misc.c:392-395: the rest of `zpl_dirinfo_free`. -/
def freeInfo (info : Info) (h : Heap) : Except Fault Heap := do
  let h ← mfree h info.entries
  let h ← mfree h info.filenames
  let h ← mfree h info.buf
  mfree h info.fullpath
end

/-- file_misc.c:385-395 `zpl_dirinfo_free`; the array of entries is read for the loop.  The pointers stay in `info`. -/
def dirinfoFree (info : Info) (es : Entries) (h : Heap) : Except Fault Heap :=
  if info.entries ∈ h.live then do freeInfo info (← freeEntries es h) else .error .ub

/-- file_misc.c:377-383 `zpl__dirinfo_free_entry` of the first entry of an array. -/
def freeFirst : Entries → Heap → Except Fault (Entries × Heap)
  | .nil, _ => .error .ub
  | .plain rest, h => .ok (.plain rest, h)
  | .stepped block info sub rest, h => do
    if block ∈ h.live then
      let h ← dirinfoFree info sub h
      let h ← mfree h block
      .ok (.plain rest, h)
    else .error .ub

/-- file_misc.c:425-446 `zpl_dirinfo_step` of the first entry of an array. -/
def stepFirst (n : Nat) (es : Entries) (h : Heap) : Except Fault (Entries × Heap) := do
  match ← freeFirst es h with
  | (.plain rest, h) =>
    let (block, h) := malloc h
    let (info, sub, h) := dirinfoInit h n
    .ok (.stepped block info sub rest, h)
  | _ => .error .ub

/-- `zpl_dirinfo_step` of an entry further on or further down: `i :: path` is the `path` below entry `i`.  The array of the entries and the text of their names, in which the entry has its name,
are read on the way. -/
def stepAt (n : Nat) (info : Info) : List Nat → Entries → Heap → Except Fault (Entries × Heap)
  | [], _, _ => .error .ub
  | _ :: _, .nil, _ => .error .ub
  | (i + 1) :: path, .plain rest, h => do
    let (rest, h) ← stepAt n info (i :: path) rest h
    .ok (.plain rest, h)
  | (i + 1) :: path, .stepped b d sub rest, h => do
    let (rest, h) ← stepAt n info (i :: path) rest h
    .ok (.stepped b d sub rest, h)
  | [0], .plain rest, h => if info.entries ∈ h.live ∧ info.buf ∈ h.live then stepFirst n (.plain rest) h else .error .ub
  | [0], .stepped b d sub rest, h => if info.entries ∈ h.live ∧ info.buf ∈ h.live then stepFirst n (.stepped b d sub rest) h else .error .ub
  | 0 :: _ :: _, .plain _, _ => .error .ub
  | 0 :: i :: path, .stepped b d sub rest, h =>
    if info.entries ∈ h.live ∧ b ∈ h.live then do
      let (sub, h) ← stepAt n d (i :: path) sub h
      .ok (.stepped b d sub rest, h)
    else .error .ub

/-- file.h:97-105 `zpl_file`: whether it is a temporary one, its name, and its `dir`: an entry, as an array of one, in a block of its own. -/
structure File where
  isTemp : Bool
  filename : Nat
  dir : Option (Nat × Entries)

/-- file_misc.c:448-465 `zpl_file_dirinfo_refresh`. -/
def refresh (n : Nat) (f : File) (h : Heap) : Except Fault (File × Heap) :=
  if f.isTemp then .ok (f, h)
  else do
    let h ← match f.dir with
      | none => Except.ok h
      | some (b, e) => do
        let (_, h) ← freeFirst e h
        mfree h b
    let (b, h) := malloc h
    let (e, h) ← stepFirst n (.plain .nil) h
    .ok ({ f with dir := some (b, e) }, h)

/-- file.c:254-281 `zpl_file_close` of a file that is open: the memory it frees. -/
def close (f : File) (h : Heap) : Except Fault (File × Heap) := do
  let h ← mfree h f.filename
  if f.isTemp then .ok (f, h)
  else
    match f.dir with
    | none => .ok (f, h)
    | some (b, e) => do
      let (_, h) ← freeFirst e h
      let h ← mfree h b
      .ok ({ f with dir := none }, h)

/-! ## Specification -/

/-- The path leads to an entry: all entries above it were stepped into. -/
def Leads : List Nat → Entries → Prop
  | [], _ => False
  | _ :: _, .nil => False
  | (i + 1) :: path, .plain rest => Leads (i :: path) rest
  | (i + 1) :: path, .stepped _ _ _ rest => Leads (i :: path) rest
  | [0], _ => True
  | 0 :: _ :: _, .plain _ => False
  | 0 :: i :: path, .stepped _ _ sub _ => Leads (i :: path) sub

/-- What a client has after `zpl_dirinfo_init` and any number of steps. -/
inductive Browsed (h0 : Heap) : Info → Entries → Heap → Prop
  | init (n : Nat) : Browsed h0 (dirinfoInit h0 n).1 (dirinfoInit h0 n).2.1 (dirinfoInit h0 n).2.2
  | step {info es h es' h'} (path : List Nat) (n : Nat) : Browsed h0 info es h → stepAt n info path es h = .ok (es', h') → Browsed h0 info es' h'

/-- An open file after any number of refreshes, and steps below its folder. -/
inductive Used (isTemp : Bool) (filename : Nat) (h0 : Heap) : File → Heap → Prop
  | opened : Used isTemp filename h0 ⟨isTemp, filename, none⟩ h0
  | refresh {f h f' h'} (n : Nat) : Used isTemp filename h0 f h → refresh n f h = .ok (f', h') → Used isTemp filename h0 f' h'
  | step {t nm b p info sub rest sub' h h'} (path : List Nat) (n : Nat) : Used isTemp filename h0 ⟨t, nm, some (b, .stepped p info sub rest)⟩ h →
      stepAt n info path sub h = .ok (sub', h') → Used isTemp filename h0 ⟨t, nm, some (b, .stepped p info sub' rest)⟩ h'

/-! ## Lemmas -/

/-- The blocks of a `zpl_dir_info` itself. -/
def Info.blocks (i : Info) : List Nat := [i.entries, i.filenames, i.buf, i.fullpath]

/-- The blocks that belong to entries. -/
def blocks : Entries → List Nat
  | .nil => []
  | .plain rest => blocks rest
  | .stepped b info sub rest => (blocks sub ++ (info.blocks ++ [b])) ++ blocks rest

theorem ok_bind {α β : Type} (a : α) (f : α → Except Fault β) : (Except.ok a >>= f) = f a := rfl

theorem mfree_ok {h : Heap} {b : Nat} {rest : List Nat} (hp : h.live.Perm (b :: rest)) : ∃ h', mfree h b = .ok h' ∧ h'.live.Perm rest ∧ h'.next = h.next := by
  refine ⟨{ h with live := h.live.erase b }, ?_, ?_, rfl⟩
  · rw [mfree, if_pos (hp.mem_iff.2 (by simp))]
  · have := hp.erase b
    rwa [List.erase_cons_head] at this

theorem freeInfo_ok {h : Heap} {info : Info} {rest : List Nat} (hp : h.live.Perm (info.blocks ++ rest)) :
    ∃ h', freeInfo info h = .ok h' ∧ h'.live.Perm rest ∧ h'.next = h.next := by
  simp only [Info.blocks, List.cons_append, List.nil_append] at hp
  obtain ⟨h1, e1, p1, n1⟩ := mfree_ok hp
  obtain ⟨h2, e2, p2, n2⟩ := mfree_ok p1
  obtain ⟨h3, e3, p3, n3⟩ := mfree_ok p2
  obtain ⟨h4, e4, p4, n4⟩ := mfree_ok p3
  refine ⟨h4, ?_, p4, by omega⟩
  rw [freeInfo, e1, ok_bind, e2, ok_bind, e3, ok_bind, e4]

theorem freeEntries_ok (es : Entries) : ∀ {h : Heap} {rest : List Nat}, h.live.Perm (blocks es ++ rest) →
    ∃ h', freeEntries es h = .ok h' ∧ h'.live.Perm rest ∧ h'.next = h.next := by
  induction es with
  | nil => intro h rest hp; exact ⟨h, by rw [freeEntries], by simpa [blocks] using hp, rfl⟩
  | plain r ih =>
    intro h rest hp
    rw [freeEntries]
    exact ih (by simpa [blocks] using hp)
  | stepped b info sub r ihs ihr =>
    intro h rest hp
    simp only [blocks, List.append_assoc] at hp
    have m1 : b ∈ h.live := hp.mem_iff.2 (by simp)
    have m2 : info.entries ∈ h.live := hp.mem_iff.2 (by simp [Info.blocks])
    obtain ⟨h1, e1, p1, n1⟩ := ihs hp
    obtain ⟨h2, e2, p2, n2⟩ := freeInfo_ok p1
    obtain ⟨h3, e3, p3, n3⟩ := mfree_ok p2
    obtain ⟨h4, e4, p4, n4⟩ := ihr p3
    refine ⟨h4, ?_, p4, by omega⟩
    rw [freeEntries, if_pos m1, if_pos m2, e1, ok_bind, e2, ok_bind, e3, ok_bind, e4]

theorem dirinfoFree_ok {info : Info} {es : Entries} {h : Heap} {rest : List Nat} (hp : h.live.Perm (blocks es ++ (info.blocks ++ rest))) :
    ∃ h', dirinfoFree info es h = .ok h' ∧ h'.live.Perm rest ∧ h'.next = h.next := by
  obtain ⟨h1, e1, p1, n1⟩ := freeEntries_ok es hp
  obtain ⟨h2, e2, p2, n2⟩ := freeInfo_ok p1
  refine ⟨h2, ?_, p2, by omega⟩
  rw [dirinfoFree, if_pos (hp.mem_iff.2 (by simp [Info.blocks])), e1, ok_bind, e2]

theorem blocks_plains (n : Nat) : blocks (plains n) = [] := by
  induction n with
  | zero => rfl
  | succ n ih => simpa [plains, blocks] using ih

/-- The array without what was below its first entry. -/
def tail : Entries → Entries
  | .nil => .nil
  | .plain r => r
  | .stepped _ _ _ r => r

theorem freeFirst_ok {es : Entries} {h : Heap} {rest : List Nat} (hn : es ≠ .nil) (hp : h.live.Perm (blocks es ++ rest)) :
    ∃ h', freeFirst es h = .ok (.plain (tail es), h') ∧ h'.live.Perm (blocks (tail es) ++ rest) ∧ h'.next = h.next := by
  cases es with
  | nil => exact absurd rfl hn
  | plain r => exact ⟨h, by rw [freeFirst, tail], hp, rfl⟩
  | stepped b info sub r =>
    simp only [blocks, List.append_assoc] at hp
    obtain ⟨h1, e1, p1, n1⟩ := dirinfoFree_ok hp
    obtain ⟨h2, e2, p2, n2⟩ := mfree_ok p1
    refine ⟨h2, ?_, p2, by omega⟩
    rw [freeFirst, if_pos (hp.mem_iff.2 (by simp)), e1, ok_bind, e2, ok_bind, tail]

theorem init_perm (h : Heap) (n : Nat) : (dirinfoInit h n).2.2.live.Perm (blocks (dirinfoInit h n).2.1 ++ ((dirinfoInit h n).1.blocks ++ h.live)) := by
  simp only [dirinfoInit, malloc, blocks_plains, Info.blocks, List.nil_append, List.cons_append]
  exact .refl _

theorem stepFirst_ok (n : Nat) {es : Entries} {h : Heap} {rest : List Nat} (hn : es ≠ .nil) (hp : h.live.Perm (blocks es ++ rest)) :
    ∃ b info sub h', stepFirst n es h = .ok (.stepped b info sub (tail es), h') ∧ h'.live.Perm (blocks (.stepped b info sub (tail es)) ++ rest) := by
  obtain ⟨h1, e1, p1, -⟩ := freeFirst_ok hn hp
  refine ⟨(malloc h1).1, _, _, _, by rw [stepFirst, e1, ok_bind], ?_⟩
  refine (init_perm (malloc h1).2 n).trans ?_
  simp only [blocks, malloc, List.append_assoc, List.singleton_append, List.cons_append]
  refine .append_left _ (.append_left _ (.cons _ ?_))
  exact p1

theorem leads_ne {path : List Nat} {es : Entries} (h : Leads path es) : es ≠ .nil := by
  rintro rfl
  match path with
  | [] => simp [Leads] at h
  | i :: p => cases p <;> cases i <;> simp [Leads] at h

/-- A step below any entry there is: nothing goes wrong, and the blocks are again those of the entries. -/
theorem stepAt_ok (n : Nat) : ∀ (path : List Nat) (es : Entries) (info : Info) (h : Heap) (rest : List Nat), Leads path es → info.entries ∈ rest → info.buf ∈ rest →
    h.live.Perm (blocks es ++ rest) → ∃ es' h', stepAt n info path es h = .ok (es', h') ∧ h'.live.Perm (blocks es' ++ rest) := by
  intro path es
  induction es generalizing path with
  | nil => intro info h rest hl; exact absurd rfl (leads_ne hl)
  | plain r ih =>
    intro info h rest hl m1 m2 hp
    match path, hl with
    | (i + 1) :: p, hl =>
      obtain ⟨es', h', e, q⟩ := ih (i :: p) info h rest (by simpa [Leads] using hl) m1 m2 hp
      exact ⟨.plain es', h', by rw [stepAt, e, ok_bind], q⟩
    | [0], _ =>
      obtain ⟨b, i, s, h', e, q⟩ := stepFirst_ok n (es := .plain r) (by simp) hp
      exact ⟨_, h', by rw [stepAt, if_pos ⟨hp.mem_iff.2 (by simp [m1]), hp.mem_iff.2 (by simp [m2])⟩, e], q⟩
    | 0 :: _ :: _, hl => simp [Leads] at hl
    | [], hl => simp [Leads] at hl
  | stepped b d sub r ihs ihr =>
    intro info h rest hl m1 m2 hp
    match path, hl with
    | (i + 1) :: p, hl =>
      have hp' : h.live.Perm (blocks r ++ ((blocks sub ++ (d.blocks ++ [b])) ++ rest)) := by
        refine hp.trans ?_
        rw [blocks, ← List.append_assoc (blocks r)]
        exact (List.perm_append_comm).append_right rest
      obtain ⟨es', h', e, q⟩ := ihr (i :: p) info h _ (by simpa [Leads] using hl) (List.mem_append_right _ m1) (List.mem_append_right _ m2) hp'
      refine ⟨.stepped b d sub es', h', by rw [stepAt, e, ok_bind], q.trans ?_⟩
      rw [blocks, ← List.append_assoc (blocks es')]
      exact (List.perm_append_comm).append_right rest
    | [0], _ =>
      obtain ⟨b', i, s, h', e, q⟩ := stepFirst_ok n (es := .stepped b d sub r) (by simp) hp
      exact ⟨_, h', by rw [stepAt, if_pos ⟨hp.mem_iff.2 (by simp [m1]), hp.mem_iff.2 (by simp [m2])⟩, e], q⟩
    | 0 :: i :: p, hl =>
      have mb : b ∈ h.live := hp.mem_iff.2 (by simp [blocks])
      have me : info.entries ∈ h.live := hp.mem_iff.2 (by simp [m1])
      simp only [blocks, List.append_assoc] at hp
      obtain ⟨es', h', e, q⟩ := ihs (i :: p) d h _ (by simpa [Leads] using hl) (by simp [Info.blocks]) (by simp [Info.blocks]) hp
      refine ⟨.stepped b d es' r, h', by rw [stepAt, if_pos ⟨me, mb⟩, e, ok_bind], ?_⟩
      simpa only [blocks, List.append_assoc] using q
    | [], hl => simp [Leads] at hl

/-- A step that succeeds is one to an entry there is. -/
theorem stepAt_leads (n : Nat) : ∀ (path : List Nat) (es : Entries) (info : Info) (h : Heap) (r : Entries × Heap), stepAt n info path es h = .ok r → Leads path es := by
  intro path es
  induction es generalizing path with
  | nil =>
    intro info h r e
    match path with
    | [] => simp [stepAt] at e
    | i :: p => cases i <;> cases p <;> simp [stepAt] at e
  | plain rest ih =>
    intro info h r e
    match path with
    | [] => simp [stepAt] at e
    | (i + 1) :: p =>
      rw [stepAt] at e
      cases e1 : stepAt n info (i :: p) rest h with
      | error x => rw [e1] at e; cases e
      | ok v => simpa [Leads] using ih _ _ _ _ e1
    | [0] => simp [Leads]
    | 0 :: _ :: _ => simp [stepAt] at e
  | stepped b d sub rest ihs ihr =>
    intro info h r e
    match path with
    | [] => simp [stepAt] at e
    | (i + 1) :: p =>
      rw [stepAt] at e
      cases e1 : stepAt n info (i :: p) rest h with
      | error x => rw [e1] at e; cases e
      | ok v => simpa [Leads] using ihr _ _ _ _ e1
    | [0] => simp [Leads]
    | 0 :: i :: p =>
      rw [stepAt] at e
      split at e
      · cases e1 : stepAt n d (i :: p) sub h with
        | error x => rw [e1] at e; cases e
        | ok v => simpa [Leads] using ihs _ _ _ _ e1
      · cases e

theorem browsed_perm {h0 : Heap} {info : Info} {es : Entries} {h : Heap} (hb : Browsed h0 info es h) : h.live.Perm (blocks es ++ (info.blocks ++ h0.live)) := by
  induction hb with
  | init n => exact init_perm h0 n
  | @step info es h es' h' path n _ e ih =>
    obtain ⟨es2, h2, e2, p2⟩ := stepAt_ok n path es info h _ (stepAt_leads n path es info h _ e) (by simp [Info.blocks]) (by simp [Info.blocks]) ih
    rw [e2] at e
    cases e
    exact p2

/-! ## Properties -/

/-- **C143.**  After any steps into folders, in whatever order and however often, `zpl_dirinfo_free` frees all that was allocated since `zpl_dirinfo_init`, each block once, and nothing else. -/
theorem C143_all_freed {h0 h : Heap} {info : Info} {es : Entries} (hb : Browsed h0 info es h) :
    ∃ h', dirinfoFree info es h = .ok h' ∧ h'.live.Perm h0.live := by
  obtain ⟨h', e, p, -⟩ := dirinfoFree_ok (browsed_perm hb)
  exact ⟨h', e, p⟩

/-- **C143.**  A step to an entry there is touches and frees only memory that is allocated. -/
theorem C143_step {h0 h : Heap} {info : Info} {es : Entries} (hb : Browsed h0 info es h) {path : List Nat} (hl : Leads path es) (n : Nat) :
    ∃ es' h', stepAt n info path es h = .ok (es', h') := by
  obtain ⟨es', h', e, -⟩ := stepAt_ok n path es info h _ hl (by simp [Info.blocks]) (by simp [Info.blocks]) (browsed_perm hb)
  exact ⟨es', h', e⟩

/-- The blocks a file has besides those there were: none, or those of its folder. -/
def fileBlocks : Option (Nat × Entries) → List Nat
  | none => []
  | some (b, e) => blocks e ++ [b]

theorem used_inv {t : Bool} {nm : Nat} {h0 h : Heap} {f : File} (hu : Used t nm h0 f h) :
    f.isTemp = t ∧ f.filename = nm ∧ (t = true → f.dir = none) ∧ (∀ b e, f.dir = some (b, e) → e ≠ .nil ∧ tail e = .nil) ∧ h.live.Perm (fileBlocks f.dir ++ h0.live) := by
  induction hu with
  | opened => exact ⟨rfl, rfl, fun _ => rfl, fun b e h => (by simp at h), List.Perm.refl _⟩
  | @refresh f h f' h' n _ e ih =>
    obtain ⟨a1, a2, a3, a4, a5⟩ := ih
    rw [refresh] at e
    split at e
    · cases e; exact ⟨a1, a2, a3, a4, a5⟩
    · rename_i ht
      have main : ∀ g : Heap, g.live.Perm h0.live → (do
          let (b, h) := malloc g
          let (e, h) ← stepFirst n (.plain .nil) h
          .ok ({ f with dir := some (b, e) }, h) : Except Fault (File × Heap)) = .ok (f', h') →
          f'.isTemp = t ∧ f'.filename = nm ∧ (t = true → f'.dir = none) ∧ (∀ b e, f'.dir = some (b, e) → e ≠ .nil ∧ tail e = .nil) ∧
            h'.live.Perm (fileBlocks f'.dir ++ h0.live) := by
        intro g hg e
        obtain ⟨b, i, s, h2, e2, p2⟩ := stepFirst_ok n (es := .plain .nil) (h := (malloc g).2) (rest := (malloc g).2.live) (by simp) (.refl _)
        simp only [malloc] at e e2 p2
        rw [e2, ok_bind] at e
        cases e
        refine ⟨a1, a2, fun h => absurd (a1.trans h) ht, ?_, ?_⟩
        · intro b e h
          cases h
          exact ⟨by simp, rfl⟩
        · refine p2.trans ?_
          simp only [fileBlocks, List.append_assoc, List.singleton_append]
          exact .append_left _ (.cons _ hg)
      cases hd : f.dir with
      | none =>
        rw [hd] at e a5
        exact main h a5 e
      | some be =>
        obtain ⟨b, en⟩ := be
        rw [hd] at e a5
        obtain ⟨c1, c2⟩ := a4 b en hd
        simp only [fileBlocks, List.append_assoc] at a5
        obtain ⟨h1, e1, p1, -⟩ := freeFirst_ok c1 a5
        rw [c2] at p1
        obtain ⟨h2, e2, p2, -⟩ := mfree_ok p1
        dsimp only at e
        rw [e1, ok_bind] at e
        dsimp only at e
        rw [e2] at e
        exact main h2 p2 e
  | @step t' nm' b p info sub rest sub' h h' path n _ e ih =>
    obtain ⟨a1, a2, a3, a4, a5⟩ := ih
    refine ⟨a1, a2, fun h => (by cases a3 h), ?_, ?_⟩
    · intro b' e' h
      cases h
      exact ⟨by simp, (a4 b _ rfl).2⟩
    · simp only [fileBlocks, blocks, List.append_assoc] at a5 ⊢
      obtain ⟨es2, h2, e2, p2⟩ := stepAt_ok n path sub info h _ (stepAt_leads n path sub info h _ e) (by simp [Info.blocks]) (by simp [Info.blocks]) a5
      rw [e2] at e
      cases e
      exact p2

/-- **C143.**  Closing a file frees its name and all that refreshing its folder information, and stepping about in it, has allocated: what is left is what there was when it was opened, without
the name. -/
theorem C143_close {t : Bool} {nm : Nat} {h0 h : Heap} {f : File} (hu : Used t nm h0 f h) (hm : nm ∈ h0.live) :
    ∃ f' h', close f h = .ok (f', h') ∧ (nm :: h'.live).Perm h0.live := by
  obtain ⟨a1, a2, a3, a4, a5⟩ := used_inv hu
  have hp : h.live.Perm (nm :: (fileBlocks f.dir ++ h0.live.erase nm)) :=
    (a5.trans (.append_left _ (List.perm_cons_erase hm))).trans List.perm_middle
  obtain ⟨h1, e1, p1, -⟩ := mfree_ok hp
  cases hd : f.dir with
  | none =>
    rw [hd] at p1
    refine ⟨f, h1, ?_, (List.Perm.cons _ p1).trans (List.perm_cons_erase hm).symm⟩
    rw [close, a2, e1, ok_bind, hd]
    split <;> rfl
  | some be =>
    obtain ⟨b, e⟩ := be
    rw [hd] at p1
    obtain ⟨c1, c2⟩ := a4 b e hd
    have ht : ¬ f.isTemp = true := fun h => by rw [a3 (a1.symm.trans h)] at hd; cases hd
    simp only [fileBlocks, List.append_assoc] at p1
    obtain ⟨h2, e2, p2, -⟩ := freeFirst_ok c1 p1
    rw [c2] at p2
    obtain ⟨h3, e3, p3, -⟩ := mfree_ok p2
    refine ⟨{ f with dir := none }, h3, ?_, (List.Perm.cons _ p3).trans (List.perm_cons_erase hm).symm⟩
    rw [close, a2, e1, ok_bind, if_neg ht, hd]
    dsimp only
    rw [e2, ok_bind]
    dsimp only
    rw [e3, ok_bind]

/-- **C143.**  A refresh in the middle of all this goes well too. -/
theorem C143_refresh {t : Bool} {nm : Nat} {h0 h : Heap} {f : File} (hu : Used t nm h0 f h) (n : Nat) : ∃ f' h', refresh n f h = .ok (f', h') := by
  obtain ⟨a1, a2, a3, a4, a5⟩ := used_inv hu
  rw [refresh]
  split
  · exact ⟨_, _, rfl⟩
  · cases hd : f.dir with
    | none =>
      obtain ⟨b, i, s, h2, e2, -⟩ := stepFirst_ok n (es := .plain .nil) (h := (malloc h).2) (rest := (malloc h).2.live) (by simp) (.refl _)
      refine ⟨{ f with dir := some (h.next, .stepped b i s .nil) }, h2, ?_⟩
      dsimp only
      rw [ok_bind]
      simp only [malloc, tail] at e2 ⊢
      rw [e2, ok_bind]
    | some be =>
      obtain ⟨b, en⟩ := be
      rw [hd] at a5
      obtain ⟨c1, c2⟩ := a4 b en hd
      simp only [fileBlocks, List.append_assoc] at a5
      obtain ⟨h1, e1, p1, -⟩ := freeFirst_ok c1 a5
      rw [c2] at p1
      obtain ⟨h2, e2, p2, -⟩ := mfree_ok p1
      obtain ⟨b', i, s, h3, e3, -⟩ := stepFirst_ok n (es := .plain .nil) (h := (malloc h2).2) (rest := (malloc h2).2.live) (by simp) (.refl _)
      refine ⟨{ f with dir := some (h2.next, .stepped b' i s .nil) }, h3, ?_⟩
      dsimp only
      rw [e1, ok_bind]
      dsimp only
      rw [e2, ok_bind]
      simp only [malloc, tail] at e3 ⊢
      rw [e3, ok_bind]

/-- **C143, a limit.**  The pointers stay in the information that was freed: freeing it a second time is undefined. -/
theorem C143_once {h0 h h' : Heap} {info : Info} {es : Entries} (hb : Browsed h0 info es h) (hf : dirinfoFree info es h = .ok h') (hn : info.entries ∉ h0.live) :
    dirinfoFree info es h' = .error .ub := by
  obtain ⟨h2, e, p⟩ := C143_all_freed hb
  rw [e] at hf
  cases hf
  rw [dirinfoFree, if_neg (fun hm => hn (p.mem_iff.1 hm))]

/-! ## Non-vacuity -/

/-- A folder with three entries; the second is stepped into, then the first entry of that, then the second again. -/
example : ∃ info es h, Browsed ⟨[7, 3], 8⟩ info es h ∧ es = .plain (.stepped 22 ⟨23, 26, 25, 24⟩ (.plain .nil) (.plain .nil)) ∧ Leads [1, 0] es ∧ info.entries ∉ [7, 3] := by
  refine ⟨_, _, _, .step [1] 1 (.step [1, 0] 2 (.step [1] 2 (.init 3) rfl) rfl) rfl, rfl, ?_, ?_⟩
  · simp [Leads, plains]
  · decide

/-- A file whose folder is refreshed twice, with a step between. -/
example : ∃ f h, Used false 3 ⟨[7, 3], 8⟩ f h ∧ f.dir.isSome = true :=
  ⟨_, _, .refresh 1 (.step [1] 2 (.refresh 2 .opened rfl) rfl) rfl, rfl⟩

end Zpl.DirFree
