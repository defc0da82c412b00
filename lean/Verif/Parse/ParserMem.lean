import Verif.Parse.JsonMem
import Verif.Parse.Csv
import Verif.Parse.UriDoc

/-!
# Memory of parsed tables and URIs, and running out of memory (code/source/parsers/csv.c:13-146, uri.c:43-116, json.c)  -  C150, C151

The parsers of `Parse/Csv` and `Parse/UriDoc` again, with the arrays of nodes they allocate and free.  `mem` says which requests for memory succeed; every request has a number, whether it succeeds
or not.

## Model -/

namespace Zpl.ParserMem

open Zpl Zpl.Str
open Zpl.Adt (Ptr grow blocks blocksL release destroy)
open Zpl.JsonMem (Alloc)

/-- `zpl_alloc`: the identity of the array, or `none`. -/
def request (mem : Nat → Bool) (m : Alloc) : Option Nat × Alloc :=
  if mem m.next then (some m.next, ⟨m.next + 1, m.next :: m.heap⟩) else (none, ⟨m.next + 1, m.heap⟩)

/-- array.h:134-149 `zpl__array_grow`, 115-130 `zpl__array_set_capacity`: room for one more element in the array `blk`; `none` if there is no memory. -/
def room (mem : Nat → Bool) (m : Alloc) (blk cap len : Nat) : Except Fault (Alloc × Option (Nat × Nat)) :=
  if len < cap then .ok (m, some (blk, cap))
  else match request mem m with
    | (some b, m) => do
      let h ← release m.heap blk
      .ok (⟨m.next, h⟩, some (b, grow cap))
    | (none, m) => .ok (m, none)

/-! ### Tables -/

/-- A column with the array of its cells. -/
structure Col (ν : Type) where
  name : Option (List Byte)
  blk : Nat
  cap : Nat
  cells : List (Csv.Cell ν)

/-- csv.c:18-20: the memory, the array of the root (`none`: NULL), the columns, `colc` and `total_colc`. -/
structure Table (ν : Type) where
  m : Alloc
  arr : Option (Nat × Nat)
  cols : List (Col ν)
  colc : Nat
  total : Nat

section
variable {ν : Type}

/-- csv.c:103-105: `zpl_adt_append_arr` (adt.c:324-332) if there is no such column yet.  If it fails the column does not exist, but is used nevertheless. -/
def column (mem : Nat → Bool) (s : Table ν) : Except Fault (Table ν) :=
  match s.arr with
  | none => .error .ub
  | some (blk, cap) =>
    if s.colc ≥ s.cols.length then do
      match ← room mem s.m blk cap s.cols.length with
      | (_, none) => .error .ub
      | (m, some arr) =>
        match request mem m with
        | (none, _) => .error .ub
        | (some b, m) => .ok { s with m := m, arr := some arr, cols := s.cols ++ [{ name := none, blk := b, cap := grow 0, cells := [] }] }
    else .ok s

/-- csv.c:103-107; that `zpl_array_append` has failed is not noticed. -/
def place (mem : Nat → Bool) (s : Table ν) (cell : Csv.Cell ν) : Except Fault (Table ν) := do
  let s ← column mem s
  let col ← rd s.cols s.colc
  match ← room mem s.m col.blk col.cap col.cells.length with
  | (m, none) => .ok { s with m := m }
  | (m, some (b, c)) => do
    let cols ← wr s.cols s.colc { col with blk := b, cap := c, cells := col.cells ++ [cell] }
    .ok { s with m := m, cols := cols }

/-- csv.c:109-123. -/
def advance (delim : Byte) (s : Table ν) (d : Byte) (p : List Byte) : Option (Table ν × List Byte) :=
  if d = delim then some ({ s with colc := s.colc + 1 }, p.drop 1)
  else if d = 0x0a#8 ∨ d = 0 then
    if s.total < s.colc ∨ s.total = s.colc then
      some ({ s with total := s.colc, colc := 0 }, if d ≠ 0 then p.drop 1 else p)
    else none
  else some (s, p)

/-- csv.c:22-124. -/
def tableLoop (io : Json.NumIO ν) (mem : Nat → Bool) (delim : Byte) : Nat → Table ν → List Byte → Except Fault (Csv.Err × Table ν)
  | 0, _, _ => .error .diverge
  | n + 1, s, p => do
    let k ← Token.trim false p
    let p := p.drop k
    if (← rd p 0) = 0 then .ok (.none, s)
    else
      match ← Csv.readCell io delim p with
      | none => .ok (.unexpectedEnd, s)
      | some (cell, d, p) =>
        let s ← place mem s cell
        match advance delim s d p with
        | none => .ok (.mismatchedRows, s)
        | some (s, p) => if (← rd p 0) ≠ 0 then tableLoop io mem delim n s p else .ok (.none, s)

/-- csv.c:133-139: the first cell of a column becomes its name; the array stays as it is. -/
def named (c : Col ν) : Except Fault (Col ν) := do
  let h ← Csv.header ⟨c.name, c.cells⟩
  .ok { c with name := h.name, cells := h.cells }

/-- csv.c:18, adt.c:10-23: the array of the root; that there is no memory for it is not noticed. -/
def start (mem : Nat → Bool) : Table ν :=
  match request mem ⟨1, []⟩ with
  | (some b, m) => ⟨m, some (b, grow 0), [], 0, 0⟩
  | (none, m) => ⟨m, none, [], 0, 0⟩

/-- csv.c:13-143 `zpl_csv_parse_delimiter`. -/
def parseTable (io : Json.NumIO ν) (mem : Nat → Bool) (hasHeader : Bool) (delim : Byte) (text : List Byte) : Except Fault (Csv.Err × Table ν) := do
  let (err, s) ← tableLoop io mem delim (text.length + 1) (start mem) text
  if err ≠ .none then .ok (err, s)
  else if s.arr = none then .error .ub
  else if s.cols.length = 0 then .ok (.unexpectedEnd, s)
  else if hasHeader then do .ok (.none, { s with cols := ← s.cols.mapM named })
  else .ok (.none, s)

/-- The table as `zpl_adt_destroy_branch` sees it; what is in the cells is left out. -/
def Table.node (hasHeader : Bool) (s : Table ν) : Adt.Node :=
  match s.arr with
  | none => .leaf none none .none
  | some (b, c) => .branch none none (!hasHeader) b c (s.cols.map fun col => .branch col.name (some ⟨0, 0⟩) true col.blk col.cap (col.cells.map fun _ => .leaf none none .none))

/-- The columns without their arrays. -/
def Table.columns (s : Table ν) : List (Csv.Column ν) := s.cols.map fun c => ⟨c.name, c.cells⟩
end

/-! ### URIs -/

/-- The memory, the array of the root and the number of its nodes. -/
structure Arr where
  m : Alloc
  arr : Option (Nat × Nat)
  count : Nat

/-- adt.c:238-247 `zpl_adt_alloc` of a node at the end: did it succeed? -/
def push (mem : Nat → Bool) (a : Arr) : Except Fault (Arr × Bool) :=
  match a.arr with
  | none => .ok (a, false)
  | some (blk, cap) => do
    match ← room mem a.m blk cap a.count with
    | (m, none) => .ok ({ a with m := m }, false)
    | (m, some arr) => .ok (⟨m, some arr, a.count + 1⟩, true)

/-- uri.c:75-109, as `UriDoc.loop`.  Without memory line 99 violates the assertion of adt.c:607 and line 102 writes to address 0. -/
def uriLoop {ρ : Type} (F : Number.Reals ρ) (one : ρ) (mem : Nat → Bool) : Nat → Arr → List Byte → Nat → Except Fault (List (UriDoc.Entry ρ) × List Byte × Arr)
  | 0, _, _, _ => .error .diverge
  | fuel + 1, a, text, p => do
    let c ← rd text p
    if c = 0 ∨ Token.isSpace c = true then .ok ([], text, a)
    else do
      let k ← UriDoc.scanTo UriDoc.nameStop (text.drop p)
      let c ← rd text (p + k)
      let text ← wr text (p + k) 0
      let text ← UriDoc.decodeAt text p
      if c = 0x3d#8 then do
        let b := p + k + 1
        let k ← UriDoc.scanTo UriDoc.valueStop (text.drop b)
        let c ← rd text (b + k)
        let text ← wr text (b + k) 0
        let text ← UriDoc.decodeAt text b
        let (a, ok) ← push mem a
        if ok = false then .error .assertion
        else do
          let (v, _) ← Number.parseNumberStrict F (text.drop b)
          let e : UriDoc.Entry ρ := ⟨p, match v with | some n => .num n | none => .str b⟩
          if c = 0 then .ok ([e], text, a)
          else do
            let (es, text, a) ← uriLoop F one mem fuel a text (b + k + 1)
            .ok (e :: es, text, a)
      else do
        let (a, ok) ← push mem a
        if ok = false then .error .ub
        else do
          let e : UriDoc.Entry ρ := ⟨p, .num { val := .real one, props := .true }⟩
          if c = 0 then .ok ([e], text, a)
          else do
            let (es, text, a) ← uriLoop F one mem fuel a text (p + k + 1)
            .ok (e :: es, text, a)

/-- uri.c:50. -/
def startArr (mem : Nat → Bool) : Arr :=
  match request mem ⟨1, []⟩ with
  | (some b, m) => ⟨m, some (b, grow 0), 0⟩
  | (none, m) => ⟨m, none, 0⟩

/-- uri.c:43-112 `zpl_uri_parse`, which reports no error; an origin for which there is no memory is not in the object. -/
def parseUri {ρ : Type} (F : Number.Reals ρ) (one : ρ) (mem : Nat → Bool) (text : List Byte) : Except Fault (UriDoc.Parsed ρ × Arr) := do
  let b ← Token.trim false text
  let a := startArr mem
  let c ← rd text b
  if c = 0 then .ok (⟨none, [], text⟩, a)
  else if c ≠ 0x3f#8 then do
    let k ← UriDoc.scanTo UriDoc.originStop (text.drop b)
    let c ← rd text (b + k)
    let text ← wr text (b + k) 0
    let (a, ok) ← push mem a
    let o := if ok = true then some b else none
    if c = 0 then .ok (⟨o, [], text⟩, a)
    else do
      let (es, text, a) ← uriLoop F one mem (text.length + 1) a text (b + k + 1)
      .ok (⟨o, es, text⟩, a)
  else do
    let (es, text, a) ← uriLoop F one mem (text.length + 1) a text (b + 1)
    .ok (⟨none, es, text⟩, a)

/-- The object as `zpl_adt_destroy_branch` sees it (uri.c:182-184 `zpl_uri_free`); the nodes are all leaves. -/
def Arr.node (a : Arr) : Adt.Node :=
  match a.arr with
  | none => .leaf none none .none
  | some (b, c) => .branch none none false b c (List.replicate a.count (.leaf none (some ⟨0, 0⟩) .none))

/-! ## Lemmas -/

theorem okBind {α β : Type} (a : α) (f : α → Except Fault β) : (Except.ok a >>= f) = f a := rfl

theorem skip_ok {m : Alloc} (h : m.Ok) : Alloc.Ok ⟨m.next + 1, m.heap⟩ :=
  ⟨h.nodup, Nat.succ_pos _, fun x hx => ⟨(h.bound x hx).1, Nat.lt_succ_of_lt (h.bound x hx).2⟩⟩

theorem request_ok {m : Alloc} (h : m.Ok) (mem : Nat → Bool) : (request mem m).2.Ok ∧ match (request mem m).1 with
    | some b => (request mem m).2.heap = b :: m.heap
    | none => (request mem m).2.heap = m.heap ∧ ¬ ∀ i, mem i = true := by
  unfold request
  split
  · exact ⟨(JsonMem.ok_fresh h).ok, rfl⟩
  · next hn => exact ⟨skip_ok h, rfl, fun hm => hn (hm _)⟩

/-- What there is after room was made. -/
theorem room_ok {m : Alloc} (h : m.Ok) (mem : Nat → Bool) {blk : Nat} {F : List Nat} (hp : m.heap.Perm (blk :: F)) (cap len : Nat) :
    ∃ m' r, room mem m blk cap len = .ok (m', r) ∧ m'.Ok ∧ match r with
      | some (b, _) => m'.heap.Perm (b :: F)
      | none => m'.heap.Perm (blk :: F) ∧ cap ≤ len ∧ ¬ ∀ i, mem i = true := by
  unfold room
  split
  · exact ⟨_, _, rfl, h, hp⟩
  · next hl =>
    have hr := request_ok h mem
    revert hr
    rcases request mem m with ⟨_ | b, m1⟩ <;> intro hr
    · exact ⟨_, _, rfl, hr.1, by rw [hr.2.1]; exact hp, by omega, hr.2.2⟩
    · obtain ⟨h1, h2⟩ := hr
      dsimp only at h1 h2 ⊢
      have hb : blk ∈ m1.heap := by rw [h2]; exact List.mem_cons_of_mem _ (hp.symm.subset (by simp))
      rw [release, if_pos hb, okBind]
      refine ⟨_, _, rfl, ⟨h1.nodup.erase _, h1.pos, fun x hx => h1.bound x (List.mem_of_mem_erase hx)⟩, ?_⟩
      have : m1.heap.Perm (blk :: b :: F) := by
        rw [h2]
        exact (List.Perm.cons _ hp).trans (List.Perm.swap _ _ _)
      have := this.erase blk
      rwa [List.erase_cons_head] at this

/-! ### Tables -/

section
variable {ν : Type}

/-- The allocated arrays are those of the table. -/
def Table.Owned (s : Table ν) : Prop := s.m.Ok ∧ match s.arr with
  | none => s.m.heap = [] ∧ s.cols = []
  | some (b, _) => s.m.heap.Perm (b :: s.cols.map Col.blk)

theorem column_owned {mem : Nat → Bool} {s s' : Table ν} (h : s.Owned) (e : column mem s = .ok s') : s'.Owned ∧ s'.arr ≠ none := by
  obtain ⟨hm, h⟩ := h
  unfold column at e
  split at e
  · cases e
  · next blk cap harr =>
    rw [harr] at h
    dsimp only at h
    split at e
    · obtain ⟨m1, r, e1, ok1, h1⟩ := room_ok hm mem h cap s.cols.length
      rw [e1, okBind] at e
      rcases r with _ | ⟨b, c⟩
      · cases e
      · dsimp only at e h1
        have hr := request_ok ok1 mem
        revert hr e
        rcases request mem m1 with ⟨_ | k, m2⟩ <;> intro e hr
        · cases e
        · cases e
          refine ⟨⟨hr.1, ?_⟩, by simp⟩
          dsimp only at hr ⊢
          rw [hr.2, List.map_append, List.map_singleton]
          refine (List.Perm.cons _ h1).trans ?_
          rw [List.perm_iff_count]; intro x; simp only [List.count_append, List.count_cons, List.count_nil]; omega
    · cases e
      exact ⟨⟨hm, by rw [harr]; exact h⟩, by rw [harr]; simp⟩

theorem rd_split {α : Type} {l : List α} {i : Nat} {x : α} (h : rd l i = .ok x) : i < l.length ∧ l = l.take i ++ x :: l.drop (i + 1) := by
  unfold rd at h
  split at h
  · next y hy =>
    cases h
    obtain ⟨hi, rfl⟩ := List.getElem?_eq_some_iff.1 hy
    exact ⟨hi, by rw [← List.drop_eq_getElem_cons hi, List.take_append_drop]⟩
  · cases h

theorem wr_ok {α : Type} {l : List α} {i : Nat} (hi : i < l.length) (x : α) : wr l i x = .ok (l.take i ++ x :: l.drop (i + 1)) := by
  unfold wr
  rw [if_pos hi, List.set_eq_take_append_cons_drop, if_pos hi]

theorem place_owned {mem : Nat → Bool} {s s' : Table ν} (h : s.Owned) {cell : Csv.Cell ν} (e : place mem s cell = .ok s') : s'.Owned := by
  unfold place at e
  cases e1 : column mem s with
  | error => rw [e1] at e; cases e
  | ok t =>
    rw [e1, okBind] at e
    obtain ⟨⟨hm, h1⟩, harr⟩ := column_owned h e1
    cases e2 : rd t.cols t.colc with
    | error => rw [e2] at e; cases e
    | ok col =>
      rw [e2, okBind] at e
      obtain ⟨hi, hsplit⟩ := rd_split e2
      cases ha : t.arr with
      | none => exact absurd ha harr
      | some bc =>
        obtain ⟨b, c⟩ := bc
        rw [ha] at h1
        dsimp only at h1
        have hp : t.m.heap.Perm (col.blk :: (b :: (t.cols.take t.colc).map Col.blk ++ (t.cols.drop (t.colc + 1)).map Col.blk)) := by
          refine h1.trans ?_
          conv => lhs; rw [hsplit]
          rw [List.map_append, List.map_cons]
          rw [List.perm_iff_count]; intro x; simp only [List.count_append, List.count_cons, List.cons_append]; omega
        obtain ⟨m1, r, e3, ok1, h3⟩ := room_ok hm mem hp col.cap col.cells.length
        rw [e3, okBind] at e
        rcases r with _ | ⟨b', c'⟩
        · cases e
          refine ⟨ok1, ?_⟩
          dsimp only
          rw [ha]
          dsimp only at h3 ⊢
          exact h3.1.trans (hp.symm.trans h1)
        · dsimp only at e h3
          rw [wr_ok hi, okBind] at e
          cases e
          refine ⟨ok1, ?_⟩
          dsimp only
          rw [ha]
          dsimp only
          refine h3.trans ?_
          rw [List.map_append, List.map_cons]
          rw [List.perm_iff_count]; intro x; simp only [List.count_append, List.count_cons, List.cons_append]; omega

theorem advance_owned {delim d : Byte} {s s' : Table ν} {p p' : List Byte} (h : s.Owned) (e : advance delim s d p = some (s', p')) : s'.Owned := by
  unfold advance at e
  split at e
  · cases e; exact h
  · split at e
    · split at e
      · cases e; exact h
      · cases e
    · cases e; exact h

theorem tableLoop_owned {io : Json.NumIO ν} {mem : Nat → Bool} {delim : Byte} (n : Nat) : ∀ {s : Table ν} {p : List Byte} {err : Csv.Err} {s' : Table ν}, s.Owned →
    tableLoop io mem delim n s p = .ok (err, s') → s'.Owned := by
  induction n with
  | zero => intro s p err s' _ e; cases e
  | succ n ih =>
    intro s p err s' h e
    rw [tableLoop] at e
    cases e1 : Token.trim false p with
    | error => rw [e1] at e; cases e
    | ok k =>
      rw [e1, okBind] at e
      dsimp only at e
      cases e2 : rd (p.drop k) 0 with
      | error => rw [e2] at e; cases e
      | ok c =>
        rw [e2, okBind] at e
        split at e
        · cases e; exact h
        · cases e3 : Csv.readCell io delim (p.drop k) with
          | error => rw [e3] at e; cases e
          | ok r =>
            rw [e3, okBind] at e
            rcases r with _ | ⟨cell, d, q⟩
            · cases e; exact h
            · dsimp only at e
              cases e4 : place mem s cell with
              | error => rw [e4] at e; cases e
              | ok t =>
                rw [e4, okBind] at e
                have ht := place_owned h e4
                cases e5 : advance delim t d q with
                | none => rw [e5] at e; cases e; exact ht
                | some r =>
                  obtain ⟨t', q'⟩ := r
                  rw [e5] at e
                  dsimp only at e
                  have ht' := advance_owned ht e5
                  cases e6 : rd q' 0 with
                  | error => rw [e6] at e; cases e
                  | ok c =>
                    rw [e6, okBind] at e
                    split at e
                    · exact ih ht' e
                    · cases e; exact ht'

theorem start_owned (mem : Nat → Bool) : (start (ν := ν) mem).Owned := by
  unfold start
  have hr := request_ok JsonMem.start_ok mem
  revert hr
  rcases request mem ⟨1, []⟩ with ⟨_ | b, m⟩ <;> intro hr
  · exact ⟨hr.1, hr.2.1, rfl⟩
  · refine ⟨hr.1, ?_⟩
    dsimp only at hr ⊢
    rw [hr.2, List.map_nil]

theorem mapM_named {cols cols' : List (Col ν)} (h : cols.mapM named = .ok cols') : cols'.map Col.blk = cols.map Col.blk := by
  induction cols generalizing cols' with
  | nil => rw [List.mapM_nil] at h; cases h; rfl
  | cons c cs ih =>
    rw [List.mapM_cons] at h
    cases e1 : named c with
    | error => rw [e1] at h; cases h
    | ok c' =>
      rw [e1, okBind] at h
      cases e2 : cs.mapM named with
      | error => rw [e2] at h; cases h
      | ok cs' =>
        rw [e2, okBind] at h
        cases h
        rw [List.map_cons, List.map_cons, ih e2]
        congr 1
        unfold named at e1
        cases e3 : Csv.header ⟨c.name, c.cells⟩ with
        | error => rw [e3] at e1; cases e1
        | ok h => rw [e3, okBind] at e1; cases e1; rfl

theorem parseTable_owned {io : Json.NumIO ν} {mem : Nat → Bool} {hasHeader : Bool} {delim : Byte} {text : List Byte} {err : Csv.Err} {s : Table ν}
    (e : parseTable io mem hasHeader delim text = .ok (err, s)) : s.Owned := by
  unfold parseTable at e
  cases e1 : tableLoop io mem delim (text.length + 1) (start mem) text with
  | error => rw [e1] at e; cases e
  | ok r =>
    obtain ⟨err', t⟩ := r
    have ht := tableLoop_owned _ (start_owned mem) e1
    rw [e1, okBind] at e
    dsimp only at e
    split at e
    · cases e; exact ht
    · split at e
      · cases e
      · split at e
        · cases e; exact ht
        · split at e
          · cases e2 : t.cols.mapM named with
            | error => rw [e2] at e; cases e
            | ok cols =>
              rw [e2, okBind] at e
              cases e
              obtain ⟨h1, h2⟩ := ht
              refine ⟨h1, ?_⟩
              dsimp only
              cases ha : t.arr with
              | none => exact absurd ha ‹_›
              | some bc =>
                rw [ha] at h2
                dsimp only at h2 ⊢
                rw [mapM_named e2]
                exact h2
          · cases e; exact ht

theorem blocksL_leaves {α : Type} (l : List α) (n : Adt.Node) (hn : blocks n = []) : blocksL (l.map fun _ => n) = [] := by
  induction l with
  | nil => rfl
  | cons a l ih => rw [List.map_cons, Adt.blocksL, hn, ih]; rfl

theorem blocks_cols (cols : List (Col ν)) : blocksL (cols.map fun col => .branch col.name (some ⟨0, 0⟩) true col.blk col.cap (col.cells.map fun _ => .leaf none none .none)) = cols.map Col.blk := by
  induction cols with
  | nil => rfl
  | cons c cs ih =>
    rw [List.map_cons, Adt.blocksL, ih, Adt.blocks, blocksL_leaves _ _ (by rw [Adt.blocks])]
    rfl

/-! ## Theorems -/

/-- **C150, tables.** `zpl_csv_free` of what `zpl_csv_parse` has filled frees every array that parsing has allocated, each of them once, whatever the text, whether it was accepted or refused, and
whichever requests for memory have failed. -/
theorem C150_table_freed {io : Json.NumIO ν} {mem : Nat → Bool} {hasHeader : Bool} {delim : Byte} {text : List Byte} {err : Csv.Err} {s : Table ν}
    (e : parseTable io mem hasHeader delim text = .ok (err, s)) : destroy (s.node hasHeader) s.m.heap = .ok [] := by
  obtain ⟨-, h⟩ := parseTable_owned e
  have hp : s.m.heap.Perm (blocks (s.node hasHeader) ++ []) := by
    rw [List.append_nil]
    unfold Table.node
    cases ha : s.arr with
    | none => rw [ha] at h; rw [h.1, Adt.blocks]
    | some bc =>
      rw [ha] at h
      dsimp only at h ⊢
      rw [Adt.blocks, blocks_cols]
      exact h
  obtain ⟨h', e, hp⟩ := Adt.destroy_perm _ _ _ hp
  rw [e, hp.eq_nil]

/-! ### The same table as in `Parse/Csv` -/

def Table.st (s : Table ν) : Csv.St ν := ⟨s.columns, s.colc, s.total⟩

theorem rd_map {α β : Type} (f : α → β) (l : List α) (i : Nat) : rd (l.map f) i = (rd l i).map f := by
  unfold rd
  rw [List.getElem?_map]
  cases l[i]? <;> rfl

theorem wr_map {α β : Type} (f : α → β) (l : List α) (i : Nat) (x : α) : wr (l.map f) i (f x) = (wr l i x).map (List.map f) := by
  unfold wr
  rw [List.length_map]
  split
  · rw [← List.map_set]; rfl
  · rfl

theorem place_same {mem : Nat → Bool} (hmem : ∀ i, mem i = true) {s : Table ν} (h : s.Owned) (harr : s.arr ≠ none) (cell : Csv.Cell ν) :
    Csv.place s.st cell = (place mem s cell).map Table.st ∧ ∀ s', place mem s cell = .ok s' → s'.arr ≠ none := by
  have hc : ∃ t, column mem s = .ok t ∧ t.colc = s.colc ∧ t.total = s.total ∧
      t.columns = if s.colc ≥ s.cols.length then s.columns ++ [{ name := none, cells := [] }] else s.columns := by
    unfold column
    cases ha : s.arr with
    | none => exact absurd ha harr
    | some bc =>
      obtain ⟨blk, cap⟩ := bc
      dsimp only
      obtain ⟨hm, h⟩ := h
      rw [ha] at h
      dsimp only at h
      split
      · obtain ⟨m1, r, e1, ok1, h1⟩ := room_ok hm mem h cap s.cols.length
        rw [e1, okBind]
        rcases r with _ | ⟨b, c⟩
        · exact absurd hmem h1.2.2
        · dsimp only
          have hr := request_ok ok1 mem
          revert hr
          rcases request mem m1 with ⟨_ | k, m2⟩ <;> intro hr
          · exact absurd hmem hr.2.2
          · exact ⟨_, rfl, rfl, rfl, by simp [Table.columns]⟩
      · exact ⟨_, rfl, rfl, rfl, rfl⟩
  obtain ⟨t, e1, h1, h2, h3⟩ := hc
  obtain ⟨⟨hm, h4⟩, harr'⟩ := column_owned h e1
  unfold Csv.place place
  rw [e1, okBind]
  have hl : s.columns.length = s.cols.length := by simp [Table.columns]
  have h3' : (if s.st.colc ≥ s.st.cols.length then s.st.cols ++ [{ name := none, cells := [] }] else s.st.cols) = t.columns := by
    rw [h3]
    simp only [Table.st, hl]
  dsimp only
  rw [h3', show s.st.colc = t.colc from h1.symm, Table.columns, rd_map]
  cases e2 : rd t.cols t.colc with
  | error f => exact ⟨rfl, fun s' e => by cases e⟩
  | ok col =>
    obtain ⟨hi, hsplit⟩ := rd_split e2
    cases ha : t.arr with
    | none => exact absurd ha harr'
    | some bc =>
      obtain ⟨b, c⟩ := bc
      rw [ha] at h4
      dsimp only at h4
      have hp : t.m.heap.Perm (col.blk :: (b :: (t.cols.take t.colc).map Col.blk ++ (t.cols.drop (t.colc + 1)).map Col.blk)) := by
        refine h4.trans ?_
        conv => lhs; rw [hsplit]
        rw [List.map_append, List.map_cons]
        rw [List.perm_iff_count]; intro x; simp only [List.count_append, List.count_cons, List.cons_append]; omega
      obtain ⟨m1, r, e3, ok1, h5⟩ := room_ok hm mem hp col.cap col.cells.length
      rw [okBind, e3, okBind]
      rcases r with _ | ⟨b', c'⟩
      · exact absurd hmem h5.2.2
      · dsimp only [Except.map]
        rw [okBind, wr_ok hi, okBind]
        refine ⟨?_, fun s' e => by cases e; simp⟩
        have := wr_map (fun c : Col ν => (⟨c.name, c.cells⟩ : Csv.Column ν)) t.cols t.colc { col with blk := b', cap := c', cells := col.cells ++ [cell] }
        rw [wr_ok hi] at this
        dsimp only at this
        rw [this]
        simp only [Except.map, okBind, Table.st, Table.columns, h1, h2]

theorem advance_same (delim d : Byte) (s : Table ν) (p : List Byte) : Csv.advance delim s.st d p = (advance delim s d p).map (fun r => (r.1.st, r.2)) ∧
    ∀ r, advance delim s d p = some r → r.1.arr = s.arr := by
  unfold Csv.advance advance
  split
  · exact ⟨rfl, fun r e => by cases e; rfl⟩
  · split
    · by_cases hc : s.total < s.colc ∨ s.total = s.colc
      · rw [if_pos hc, if_pos (show s.st.total < s.st.colc ∨ s.st.total = s.st.colc from hc)]; exact ⟨rfl, fun r e => by cases e; rfl⟩
      · rw [if_neg hc, if_neg (show ¬ (s.st.total < s.st.colc ∨ s.st.total = s.st.colc) from hc)]; exact ⟨rfl, fun r e => by cases e⟩
    · exact ⟨rfl, fun r e => by cases e; rfl⟩

theorem tableLoop_same (io : Json.NumIO ν) {mem : Nat → Bool} (hmem : ∀ i, mem i = true) (delim : Byte) (n : Nat) : ∀ {s : Table ν} (p : List Byte), s.Owned → s.arr ≠ none →
    Csv.parseLoop io delim n s.st p = (tableLoop io mem delim n s p).map (fun r => (r.1, r.2.st)) ∧ ∀ r, tableLoop io mem delim n s p = .ok r → r.2.arr ≠ none := by
  induction n with
  | zero => intro s p _ _; exact ⟨rfl, fun r e => by cases e⟩
  | succ n ih =>
    intro s p h harr
    rw [Csv.parseLoop, tableLoop]
    cases e1 : Token.trim false p with
    | error => exact ⟨rfl, fun r e => by cases e⟩
    | ok k =>
      rw [okBind, okBind]
      dsimp only
      cases e2 : rd (p.drop k) 0 with
      | error => exact ⟨rfl, fun r e => by cases e⟩
      | ok c =>
        rw [okBind, okBind]
        split
        · exact ⟨rfl, fun r e => by cases e; exact harr⟩
        · cases e3 : Csv.readCell io delim (p.drop k) with
          | error => exact ⟨rfl, fun r e => by cases e⟩
          | ok r =>
            rw [okBind, okBind]
            rcases r with _ | ⟨cell, d, q⟩
            · exact ⟨rfl, fun r e => by cases e; exact harr⟩
            · dsimp only
              obtain ⟨hs, ha⟩ := place_same hmem h harr cell
              rw [hs]
              cases e4 : place mem s cell with
              | error => exact ⟨rfl, fun r e => by cases e⟩
              | ok t =>
                dsimp only [Except.map]
                rw [okBind, okBind]
                have ht := place_owned h e4
                have hta := ha t e4
                obtain ⟨hs, ha⟩ := advance_same delim d t q
                rw [hs]
                cases e5 : advance delim t d q with
                | none => exact ⟨rfl, fun r e => by cases e; exact hta⟩
                | some r =>
                  obtain ⟨t', q'⟩ := r
                  dsimp only [Option.map]
                  have ht' := advance_owned ht e5
                  have hta' : t'.arr ≠ none := by rw [ha _ e5]; exact hta
                  cases e6 : rd q' 0 with
                  | error => exact ⟨rfl, fun r e => by cases e⟩
                  | ok c =>
                    rw [okBind, okBind]
                    split
                    · exact ih q' ht' hta'
                    · exact ⟨rfl, fun r e => by cases e; exact hta'⟩

theorem mapM_header (cols : List (Col ν)) : (cols.map fun c => (⟨c.name, c.cells⟩ : Csv.Column ν)).mapM Csv.header = (cols.mapM named).map (List.map fun c => (⟨c.name, c.cells⟩ : Csv.Column ν)) := by
  induction cols with
  | nil => rfl
  | cons c cs ih =>
    rw [List.map_cons, List.mapM_cons, List.mapM_cons, ih]
    have : named c = (Csv.header ⟨c.name, c.cells⟩ >>= fun h => .ok { c with name := h.name, cells := h.cells }) := rfl
    rw [this]
    cases Csv.header ⟨c.name, c.cells⟩ with
    | error => rfl
    | ok h =>
      rw [okBind, okBind, okBind]
      cases cs.mapM named with
      | error => rfl
      | ok cs' => rfl

/-- **C150, tables.** As long as memory suffices, the table is that of `Parse/Csv`. -/
theorem C150_same_table (io : Json.NumIO ν) {mem : Nat → Bool} (hmem : ∀ i, mem i = true) (hasHeader : Bool) (delim : Byte) (text : List Byte) :
    Csv.parse io hasHeader delim text = (parseTable io mem hasHeader delim text).map (fun r => (r.1, r.2.columns)) := by
  have harr : (start (ν := ν) mem).arr ≠ none ∧ (start (ν := ν) mem).st = ⟨[], 0, 0⟩ := by
    unfold start
    have hr := request_ok JsonMem.start_ok mem
    revert hr
    rcases request mem ⟨1, []⟩ with ⟨_ | b, m⟩ <;> intro hr
    · exact absurd hmem hr.2.2
    · exact ⟨by simp, rfl⟩
  obtain ⟨hs, ha⟩ := tableLoop_same io hmem delim (text.length + 1) text (start_owned mem) harr.1
  unfold Csv.parse parseTable
  rw [← harr.2, hs]
  cases e1 : tableLoop io mem delim (text.length + 1) (start mem) text with
  | error => rfl
  | ok r =>
    obtain ⟨err, t⟩ := r
    have hta := ha _ e1
    dsimp only [Except.map]
    rw [okBind, okBind]
    dsimp only
    split
    · rfl
    · have hl : t.st.cols.length = t.cols.length := by simp [Table.st, Table.columns]
      rw [hl]
      split
      · rfl
      · split
        · rw [show t.st.cols = t.cols.map fun c => (⟨c.name, c.cells⟩ : Csv.Column ν) from rfl, mapM_header]
          cases t.cols.mapM named with
          | error => rfl
          | ok cols => rfl
        · rfl
end

/-! ### URIs -/

/-- The allocated array is that of the object. -/
def Arr.Owned (a : Arr) : Prop := a.m.Ok ∧ match a.arr with
  | none => a.m.heap = []
  | some (b, _) => a.m.heap.Perm [b]

theorem push_ok {a : Arr} (h : a.Owned) (mem : Nat → Bool) : ∃ a' ok, push mem a = .ok (a', ok) ∧ a'.Owned ∧ (a.arr ≠ none → a'.arr ≠ none) ∧
    (a.arr = none → a' = a ∧ ok = false) ∧ (a.arr ≠ none → (∀ i, mem i = true) → ok = true) := by
  obtain ⟨hm, h⟩ := h
  unfold push
  cases ha : a.arr with
  | none => exact ⟨_, _, rfl, ⟨hm, h⟩, fun hn => absurd rfl hn, fun _ => ⟨rfl, rfl⟩, fun hn => absurd rfl hn⟩
  | some bc =>
    obtain ⟨blk, cap⟩ := bc
    rw [ha] at h
    dsimp only at h ⊢
    obtain ⟨m1, r, e1, ok1, h1⟩ := room_ok hm mem h cap a.count
    rw [e1, okBind]
    rcases r with _ | ⟨b, c⟩
    · refine ⟨_, _, rfl, ⟨ok1, ?_⟩, fun _ => by simp, (fun hn => nomatch hn), fun _ hmem => absurd hmem h1.2.2⟩
      dsimp only at h1 ⊢
      exact h1.1
    · exact ⟨_, _, rfl, ⟨ok1, h1⟩, fun _ => by simp, (fun hn => nomatch hn), fun _ _ => rfl⟩

section
variable {ρ : Type} (F : Number.Reals ρ) (one : ρ) {mem : Nat → Bool}

theorem uriLoop_owned (n : Nat) : ∀ {a : Arr} {text : List Byte} {p : Nat} {r : List (UriDoc.Entry ρ) × List Byte × Arr}, a.Owned → uriLoop F one mem n a text p = .ok r → r.2.2.Owned := by
  induction n with
  | zero => intro a text p r _ e; cases e
  | succ n ih =>
    intro a text p r h e
    rw [uriLoop] at e
    cases e1 : rd text p with
    | error => rw [e1] at e; cases e
    | ok c =>
    rw [e1, okBind] at e
    split at e
    · cases e; exact h
    · cases e2 : UriDoc.scanTo UriDoc.nameStop (text.drop p) with
      | error => rw [e2] at e; cases e
      | ok k =>
      rw [e2, okBind] at e
      cases e3 : rd text (p + k) with
      | error => rw [e3] at e; cases e
      | ok c1 =>
      rw [e3, okBind] at e
      cases e4 : wr text (p + k) 0 with
      | error => rw [e4] at e; cases e
      | ok t1 =>
      rw [e4, okBind] at e
      cases e5 : UriDoc.decodeAt t1 p with
      | error => rw [e5] at e; cases e
      | ok t2 =>
      rw [e5, okBind] at e
      obtain ⟨a', ok, e6, h6, -⟩ := push_ok h mem
      split at e
      · dsimp only at e
        cases e7 : UriDoc.scanTo UriDoc.valueStop (t2.drop (p + k + 1)) with
        | error => rw [e7] at e; cases e
        | ok k2 =>
        rw [e7, okBind] at e
        cases e8 : rd t2 (p + k + 1 + k2) with
        | error => rw [e8] at e; cases e
        | ok c2 =>
        rw [e8, okBind] at e
        cases e9 : wr t2 (p + k + 1 + k2) 0 with
        | error => rw [e9] at e; cases e
        | ok t3 =>
        rw [e9, okBind] at e
        cases e10 : UriDoc.decodeAt t3 (p + k + 1) with
        | error => rw [e10] at e; cases e
        | ok t4 =>
        rw [e10, okBind, e6, okBind] at e
        dsimp only at e
        split at e
        · cases e
        · cases e11 : Number.parseNumberStrict F (t4.drop (p + k + 1)) with
          | error => rw [e11] at e; cases e
          | ok v =>
          rw [e11, okBind] at e
          split at e
          · cases e; exact h6
          · cases e12 : uriLoop F one mem n a' t4 (p + k + 1 + k2 + 1) with
            | error => rw [e12] at e; cases e
            | ok q =>
              have := ih h6 e12
              rw [e12, okBind] at e; cases e; exact this
      · rw [e6, okBind] at e
        dsimp only at e
        split at e
        · cases e
        · split at e
          · cases e; exact h6
          · cases e12 : uriLoop F one mem n a' t2 (p + k + 1) with
            | error => rw [e12] at e; cases e
            | ok q =>
              have := ih h6 e12
              rw [e12, okBind] at e; cases e; exact this

theorem startArr_owned (mem : Nat → Bool) : (startArr mem).Owned := by
  unfold startArr
  have hr := request_ok JsonMem.start_ok mem
  revert hr
  rcases request mem ⟨1, []⟩ with ⟨_ | b, m⟩ <;> intro hr
  · exact ⟨hr.1, hr.2.1⟩
  · refine ⟨hr.1, ?_⟩
    dsimp only at hr ⊢
    rw [hr.2]

/-- **C150, URIs.** `zpl_uri_free` of what `zpl_uri_parse` has filled frees the array that parsing has allocated, once, whatever the text and whichever requests for memory have failed. -/
theorem C150_uri_freed {text : List Byte} {r : UriDoc.Parsed ρ} {a : Arr} (e : parseUri F one mem text = .ok (r, a)) : destroy a.node a.m.heap = .ok [] := by
  have ho : a.Owned := by
    unfold parseUri at e
    cases e1 : Token.trim false text with
    | error => rw [e1] at e; cases e
    | ok b =>
    rw [e1, okBind] at e
    dsimp only at e
    cases e2 : rd text b with
    | error => rw [e2] at e; cases e
    | ok c =>
    rw [e2, okBind] at e
    have hs := startArr_owned mem
    split at e
    · cases e; exact hs
    · split at e
      · cases e3 : UriDoc.scanTo UriDoc.originStop (text.drop b) with
        | error => rw [e3] at e; cases e
        | ok k =>
        rw [e3, okBind] at e
        cases e4 : rd text (b + k) with
        | error => rw [e4] at e; cases e
        | ok c =>
        rw [e4, okBind] at e
        cases e5 : wr text (b + k) 0 with
        | error => rw [e5] at e; cases e
        | ok t =>
        obtain ⟨a', ok, e6, h6, -⟩ := push_ok hs mem
        rw [e5, okBind, e6, okBind] at e
        dsimp only at e
        split at e
        · cases e; exact h6
        · cases e7 : uriLoop F one mem (t.length + 1) a' t (b + k + 1) with
          | error => rw [e7] at e; cases e
          | ok q => rw [e7, okBind] at e; cases e; exact uriLoop_owned F one _ h6 e7
      · cases e7 : uriLoop F one mem (text.length + 1) (startArr mem) text (b + 1) with
        | error => rw [e7] at e; cases e
        | ok q => rw [e7, okBind] at e; cases e; exact uriLoop_owned F one _ hs e7
  obtain ⟨-, h⟩ := ho
  have hp : a.m.heap.Perm (blocks a.node ++ []) := by
    rw [List.append_nil]
    unfold Arr.node
    cases ha : a.arr with
    | none => rw [ha] at h; rw [h, Adt.blocks]
    | some bc =>
      rw [ha] at h
      dsimp only at h ⊢
      have : blocksL (List.replicate a.count (.leaf none (some ⟨0, 0⟩) .none)) = [] := by
        generalize a.count = n
        induction n with
        | zero => rfl
        | succ n ih => rw [List.replicate_succ, Adt.blocksL, ih, Adt.blocks]; rfl
      rw [Adt.blocks, this]
      exact h
  obtain ⟨h', e, hp⟩ := Adt.destroy_perm _ _ _ hp
  rw [e, hp.eq_nil]

theorem uriLoop_same (hmem : ∀ i, mem i = true) (n : Nat) : ∀ {a : Arr} (text : List Byte) (p : Nat), a.Owned → a.arr ≠ none →
    UriDoc.loop F one n text p = (uriLoop F one mem n a text p).map (fun r => (r.1, r.2.1)) := by
  induction n with
  | zero => intro a text p _ _; rfl
  | succ n ih =>
    intro a text p h ha
    rw [uriLoop, UriDoc.loop]
    cases rd text p with
    | error => rfl
    | ok c =>
    rw [okBind, okBind]
    split
    · rfl
    · cases UriDoc.scanTo UriDoc.nameStop (text.drop p) with
      | error => rfl
      | ok k =>
      rw [okBind, okBind]
      cases rd text (p + k) with
      | error => rfl
      | ok c1 =>
      rw [okBind, okBind]
      cases wr text (p + k) 0 with
      | error => rfl
      | ok t1 =>
      rw [okBind, okBind]
      cases UriDoc.decodeAt t1 p with
      | error => rfl
      | ok t2 =>
      rw [okBind, okBind]
      obtain ⟨a', ok, e6, h6, h7, -, h8⟩ := push_ok h mem
      rw [h8 ha hmem] at e6
      split
      · dsimp only
        cases UriDoc.scanTo UriDoc.valueStop (t2.drop (p + k + 1)) with
        | error => rfl
        | ok k2 =>
        rw [okBind, okBind]
        cases rd t2 (p + k + 1 + k2) with
        | error => rfl
        | ok c2 =>
        rw [okBind, okBind]
        cases wr t2 (p + k + 1 + k2) 0 with
        | error => rfl
        | ok t3 =>
        rw [okBind, okBind]
        cases UriDoc.decodeAt t3 (p + k + 1) with
        | error => rfl
        | ok t4 =>
        rw [okBind, okBind, e6, okBind]
        dsimp only
        rw [if_neg (show ¬ true = false by decide)]
        cases Number.parseNumberStrict F (t4.drop (p + k + 1)) with
        | error => rfl
        | ok v =>
        rw [okBind, okBind]
        split
        · rfl
        · rw [ih t4 (p + k + 1 + k2 + 1) h6 (h7 ha)]
          cases uriLoop F one mem n a' t4 (p + k + 1 + k2 + 1) <;> rfl
      · rw [e6, okBind]
        dsimp only
        rw [if_neg (show ¬ true = false by decide)]
        split
        · rfl
        · rw [ih t2 (p + k + 1) h6 (h7 ha)]
          cases uriLoop F one mem n a' t2 (p + k + 1) <;> rfl

/-- **C150, URIs.** As long as memory suffices, the object is that of `Parse/UriDoc`. -/
theorem C150_same_uri (hmem : ∀ i, mem i = true) (text : List Byte) : UriDoc.parse F one text = (parseUri F one mem text).map (fun r => r.1) := by
  have hs := startArr_owned mem
  have ha : (startArr mem).arr ≠ none := by
    unfold startArr
    have hr := request_ok JsonMem.start_ok mem
    revert hr
    rcases request mem ⟨1, []⟩ with ⟨_ | b, m⟩ <;> intro hr
    · exact absurd hmem hr.2.2
    · simp
  unfold parseUri UriDoc.parse
  cases Token.trim false text with
  | error => rfl
  | ok b =>
  rw [okBind, okBind]
  dsimp only
  cases rd text b with
  | error => rfl
  | ok c =>
  rw [okBind, okBind]
  split
  · rfl
  · split
    · cases UriDoc.scanTo UriDoc.originStop (text.drop b) with
      | error => rfl
      | ok k =>
      rw [okBind, okBind]
      cases rd text (b + k) with
      | error => rfl
      | ok c =>
      rw [okBind, okBind]
      cases wr text (b + k) 0 with
      | error => rfl
      | ok t =>
      obtain ⟨a', ok, e6, h6, h7, -, h8⟩ := push_ok hs mem
      rw [h8 ha hmem] at e6
      rw [okBind, okBind, e6, okBind]
      dsimp only
      rw [if_pos rfl]
      split
      · rfl
      · rw [uriLoop_same F one hmem _ t (b + k + 1) h6 (h7 ha)]
        cases uriLoop F one mem (t.length + 1) a' t (b + k + 1) <;> rfl
    · rw [uriLoop_same F one hmem _ text (b + 1) hs ha]
      cases uriLoop F one mem (text.length + 1) (startArr mem) text (b + 1) <;> rfl

/-! ### Running out of memory -/

/-- Without the array of the root, the first parameter is a crash. -/
theorem uriLoop_none (n : Nat) {a : Arr} (h : a.Owned) (ha : a.arr = none) {text : List Byte} {p : Nat} {es : List (UriDoc.Entry ρ)} {t : List Byte} (e : UriDoc.loop F one n text p = .ok (es, t)) :
    if es = [] then uriLoop F one mem n a text p = .ok ([], t, a) else uriLoop F one mem n a text p = .error .assertion ∨ uriLoop F one mem n a text p = .error .ub := by
  cases n with
  | zero => cases e
  | succ n =>
    rw [UriDoc.loop] at e
    rw [uriLoop]
    obtain ⟨a', ok, e6, -, -, h7, -⟩ := push_ok h mem
    obtain ⟨rfl, rfl⟩ := h7 ha
    cases e1 : rd text p with
    | error => rw [e1] at e; cases e
    | ok c =>
    rw [e1, okBind] at e
    rw [okBind]
    split at e
    · next hc => cases e; rw [if_pos rfl, if_pos hc]
    · next hc =>
      rw [if_neg hc]
      cases e2 : UriDoc.scanTo UriDoc.nameStop (text.drop p) with
      | error => rw [e2] at e; cases e
      | ok k =>
      rw [e2, okBind] at e
      rw [okBind]
      cases e3 : rd text (p + k) with
      | error => rw [e3] at e; cases e
      | ok c1 =>
      rw [e3, okBind] at e
      rw [okBind]
      cases e4 : wr text (p + k) 0 with
      | error => rw [e4] at e; cases e
      | ok t1 =>
      rw [e4, okBind] at e
      rw [okBind]
      cases e5 : UriDoc.decodeAt t1 p with
      | error => rw [e5] at e; cases e
      | ok t2 =>
      rw [e5, okBind] at e
      rw [okBind]
      split at e
      · next hc =>
        rw [if_pos hc]
        dsimp only at e ⊢
        cases e7 : UriDoc.scanTo UriDoc.valueStop (t2.drop (p + k + 1)) with
        | error => rw [e7] at e; cases e
        | ok k2 =>
        rw [e7, okBind] at e
        rw [okBind]
        cases e8 : rd t2 (p + k + 1 + k2) with
        | error => rw [e8] at e; cases e
        | ok c2 =>
        rw [e8, okBind] at e
        rw [okBind]
        cases e9 : wr t2 (p + k + 1 + k2) 0 with
        | error => rw [e9] at e; cases e
        | ok t3 =>
        rw [e9, okBind] at e
        rw [okBind]
        cases e10 : UriDoc.decodeAt t3 (p + k + 1) with
        | error => rw [e10] at e; cases e
        | ok t4 =>
        rw [e10, okBind] at e
        have hes : es ≠ [] := by
          cases e11 : Number.parseNumberStrict F (t4.drop (p + k + 1)) with
          | error => rw [e11] at e; cases e
          | ok v =>
            rw [e11, okBind] at e
            split at e
            · cases e; simp
            · cases e12 : UriDoc.loop F one n t4 (p + k + 1 + k2 + 1) with
              | error => rw [e12] at e; cases e
              | ok q => rw [e12, okBind] at e; cases e; simp
        rw [if_neg hes, okBind, e6, okBind]
        exact .inl rfl
      · next hc =>
        rw [if_neg hc]
        have hes : es ≠ [] := by
          dsimp only at e
          split at e
          · cases e; simp
          · cases e12 : UriDoc.loop F one n t2 (p + k + 1) with
            | error => rw [e12] at e; cases e
            | ok q => rw [e12, okBind] at e; cases e; simp
        rw [if_neg hes, e6, okBind]
        exact .inr rfl

theorem startArr_none (h : mem 1 = false) : startArr mem = ⟨⟨2, []⟩, none, 0⟩ := by
  unfold startArr request
  rw [if_neg (by rw [h]; decide)]

/-- **C151, deviation.** If there is no memory for the first array `zpl_uri_parse` nevertheless reports success for a URI without parameters, whose origin is then missing; a URI with parameters
ends the program. -/
theorem C151_uri (h : mem 1 = false) {text : List Byte} {r : UriDoc.Parsed ρ} (e : UriDoc.parse F one text = .ok r) :
    if r.params = [] then parseUri F one mem text = .ok (⟨none, [], r.text⟩, ⟨⟨2, []⟩, none, 0⟩)
    else parseUri F one mem text = .error .assertion ∨ parseUri F one mem text = .error .ub := by
  have hs := startArr_owned mem
  rw [startArr_none h] at hs
  unfold UriDoc.parse at e
  unfold parseUri
  rw [startArr_none h]
  cases e1 : Token.trim false text with
  | error => rw [e1] at e; cases e
  | ok b =>
  rw [e1, okBind] at e
  rw [okBind]
  dsimp only
  cases e2 : rd text b with
  | error => rw [e2] at e; cases e
  | ok c =>
  rw [e2, okBind] at e
  rw [okBind]
  split at e
  · next hc => cases e; rw [if_pos rfl, if_pos hc]
  · next hc =>
    rw [if_neg hc]
    split at e
    · next hc =>
      rw [if_pos hc]
      cases e3 : UriDoc.scanTo UriDoc.originStop (text.drop b) with
      | error => rw [e3] at e; cases e
      | ok k =>
      rw [e3, okBind] at e
      rw [okBind]
      cases e4 : rd text (b + k) with
      | error => rw [e4] at e; cases e
      | ok c =>
      rw [e4, okBind] at e
      rw [okBind]
      cases e5 : wr text (b + k) 0 with
      | error => rw [e5] at e; cases e
      | ok t =>
      rw [e5, okBind] at e
      rw [okBind, show push mem ⟨⟨2, []⟩, none, 0⟩ = .ok (⟨⟨2, []⟩, none, 0⟩, false) from rfl, okBind]
      dsimp only
      rw [if_neg (show ¬ false = true by decide)]
      split at e
      · next hc => cases e; rw [if_pos rfl, if_pos hc]
      · next hc =>
        rw [if_neg hc]
        cases e7 : UriDoc.loop F one (t.length + 1) t (b + k + 1) with
        | error => rw [e7] at e; cases e
        | ok q =>
          obtain ⟨es, t'⟩ := q
          rw [e7, okBind] at e
          cases e
          dsimp only
          have := uriLoop_none F one (mem := mem) _ hs rfl e7
          split at this
          · next hes => rw [if_pos hes, this]; rfl
          · next hes =>
            rw [if_neg hes]
            rcases this with h | h <;> rw [h]
            · exact .inl rfl
            · exact .inr rfl
    · next hc =>
      rw [if_neg hc]
      cases e7 : UriDoc.loop F one (text.length + 1) text (b + 1) with
      | error => rw [e7] at e; cases e
      | ok q =>
        obtain ⟨es, t'⟩ := q
        rw [e7, okBind] at e
        cases e
        dsimp only
        have := uriLoop_none F one (mem := mem) _ hs rfl e7
        split at this
        · next hes => rw [if_pos hes, this]; rfl
        · next hes =>
          rw [if_neg hes]
          rcases this with h | h <;> rw [h]
          · exact .inl rfl
          · exact .inr rfl
end

/-! ### JSON -/

section
variable {ν : Type} {val : Json.Kind ν → Adt.Value} {io : Json.NumIO ν} {mem : Nat → Bool}
open Zpl.JsonMem hiding parse
open Zpl.Json (trimText strchr)

/-- The result `x` is the result `y`, or the error that there is no memory. -/
def OrOut (x y : Except Fault (JsonMem.Res ν)) : Prop := x = y ∨ ∃ b m, x = .ok (.err .outOfMemory b m)

theorem OrOut.refl (x : Except Fault (JsonMem.Res ν)) : OrOut x x := .inl rfl

theorem OrOut.bind {α : Type} (x : Except Fault α) {f g : α → Except Fault (JsonMem.Res ν)} (h : ∀ a, OrOut (f a) (g a)) : OrOut (x >>= f) (x >>= g) := by
  cases x with
  | error => exact .inl rfl
  | ok a => exact h a

theorem OrOut.bindRes {x y : Except Fault (JsonMem.Res ν)} (hx : OrOut x y) {f g : JsonMem.Res ν → Except Fault (JsonMem.Res ν)} (h : ∀ a, OrOut (f a) (g a)) (ho : ∀ b m, ∃ b' m', f (.err .outOfMemory b m) = .ok (.err .outOfMemory b' m')) :
    OrOut (x >>= f) (y >>= g) := by
  rcases hx with rfl | ⟨b, m, rfl⟩
  · exact .bind x h
  · obtain ⟨b', m', e⟩ := ho b m
    exact .inr ⟨b', m', e⟩

theorem OrOut.append (m : Alloc) (blk cap : Nat) (kids : List Adt.Node) (x : Adt.Node) {f g : Option (Alloc × Nat × Nat × List Adt.Node) → Except Fault (JsonMem.Res ν)} (h : ∀ a, OrOut (f a) (g a))
    (ho : ∃ b m, f none = .ok (.err .outOfMemory b m)) : OrOut (JsonMem.append mem m blk cap kids x >>= f) (JsonMem.append (fun _ => true) m blk cap kids x >>= g) := by
  unfold JsonMem.append
  split
  · exact .bind _ h
  · split
    · rw [if_pos rfl]; exact .bind _ h
    · exact .inr ho

theorem OrOut.ite {c : Prop} [Decidable c] {a a' b b' : Except Fault (JsonMem.Res ν)} (h : OrOut a b) (h' : OrOut a' b') : OrOut (if c then a else a') (if c then b else b') := by
  split
  · exact h
  · exact h'

theorem json_all (n : Nat) : (∀ m p, OrOut (parseValue val io mem n m p) (parseValue val io (fun _ => true) n m p)) ∧ (∀ m p, OrOut (parseObject val io mem n m p) (parseObject val io (fun _ => true) n m p)) ∧
    (∀ m blk cap done p, OrOut (parseElements val io mem n m blk cap done p) (parseElements val io (fun _ => true) n m blk cap done p)) ∧
    (∀ m blk cap done p, OrOut (parseMembers val io mem n m blk cap done p) (parseMembers val io (fun _ => true) n m blk cap done p)) := by
  induction n with
  | zero =>
    refine ⟨fun m p => ?_, fun m p => ?_, fun m blk cap done p => ?_, fun m blk cap done p => ?_⟩
    · rw [parseValue, parseValue]; exact .refl _
    · rw [parseObject, parseObject]; exact .refl _
    · rw [parseElements, parseElements]; exact .refl _
    · rw [parseMembers, parseMembers]; exact .refl _
  | succ n ih =>
    obtain ⟨iv, io', ie, im⟩ := ih
    refine ⟨fun m p => ?_, fun m p => ?_, fun m blk cap done p => ?_, fun m blk cap done p => ?_⟩
    · rw [parseValue, parseValue]
      exact .bind _ fun c => .bind _ fun q => .ite (.refl _) (.bind _ fun w => .ite (.refl _) (.ite (.refl _) (.bind _ fun o => .ite
        (.bindRes (io' m p) (fun a => .refl _) fun b m => ⟨b, m, rfl⟩) (.refl _))))
    · rw [parseObject, parseObject]
      refine .bind _ fun p => .bind _ fun c => ?_
      rw [if_neg (show ¬ true = false by decide)]
      by_cases hm : mem m.next = false
      · rw [if_pos hm]; exact .inr ⟨_, _, rfl⟩
      · rw [if_neg hm]
        exact .ite (im _ _ _ _ _) (.ite (ie _ _ _ _ _) (im _ _ _ _ _))
    · rw [parseElements, parseElements]
      refine .bind _ fun c => .ite (.refl _) (.bind _ fun p => .bind _ fun c => .ite (.refl _) (.bindRes (iv m p) (fun a => ?_) fun b m => ⟨_, _, rfl⟩))
      cases a with
      | err => exact .refl _
      | ok b p m =>
        refine .append _ _ _ _ _ (fun a => ?_) ⟨_, _, rfl⟩
        rcases a with _ | ⟨m, blk, cap, done⟩
        · exact .refl _
        · exact .bind _ fun p => .bind _ fun c => .ite (ie _ _ _ _ _) (.refl _)
    · rw [parseMembers, parseMembers]
      refine .bind _ fun p => .bind _ fun c => .ite (.refl _) (.bind _ fun s => .ite (.refl _) (.bind _ fun q => ?_))
      cases q with
      | err => exact .refl _
      | ok info p =>
        refine .bind _ fun p => .bindRes (iv m p) (fun a => ?_) fun b m => ⟨_, _, rfl⟩
        cases a with
        | err => exact .refl _
        | ok b p m =>
          refine .append _ _ _ _ _ (fun a => ?_) ⟨_, _, rfl⟩
          rcases a with _ | ⟨m, blk, cap, done⟩
          · exact .refl _
          · exact .bind _ fun f => .ite (.refl _) (.bind _ fun p => .bind _ fun c => .ite (im _ _ _ _ _) (.refl _))

/-- json.c:40-46: what `zpl_json_parse` makes of the result of `zpl__json_parse_object`. -/
def finish (val : Json.Kind ν → Adt.Value) : JsonMem.Res ν → Except Fault (Option MErr × Adt.Node × Alloc)
  | .err e b m => .ok (some e, b.node val none, m)
  | .ok b _ m => .ok (none, b.node val none, m)

/-- **C151, JSON.** Whichever requests for memory fail, `zpl_json_parse` does what it would have done with all the memory it wants, or reports that there is no memory: no document is accepted with
parts missing. -/
theorem C151_json_partial (val : Json.Kind ν → Adt.Value) (io : Json.NumIO ν) (mem : Nat → Bool) (text : List Byte) :
    JsonMem.parse val io mem text = JsonMem.parse val io (fun _ => true) text ∨ ∃ root m, JsonMem.parse val io mem text = .ok (some .outOfMemory, root, m) := by
  have e : ∀ mem : Nat → Bool, JsonMem.parse val io mem text = ((trimText Bool.true text >>= fun p => rd p 0 >>= fun c => strchr [0x7b#8, 0x5b#8, 0] c >>= fun _ =>
      parseObject val io mem (4 * text.length + 4) ⟨1, []⟩ p) >>= finish val) := by
    intro mem
    unfold JsonMem.parse
    cases trimText Bool.true text with
    | error => rfl
    | ok p =>
      rw [okBind, okBind]
      cases rd p 0 with
      | error => rfl
      | ok c =>
        rw [okBind, okBind]
        cases strchr [0x7b#8, 0x5b#8, 0] c with
        | error => rfl
        | ok b =>
          rw [okBind, okBind]
          generalize parseObject val io mem (4 * text.length + 4) ⟨1, []⟩ p = x
          cases x with
          | error => rfl
          | ok r => cases r <;> rfl
  have h : OrOut (trimText Bool.true text >>= fun p => rd p 0 >>= fun c => strchr [0x7b#8, 0x5b#8, 0] c >>= fun _ => parseObject val io mem (4 * text.length + 4) ⟨1, []⟩ p)
      (trimText Bool.true text >>= fun p => rd p 0 >>= fun c => strchr [0x7b#8, 0x5b#8, 0] c >>= fun _ => parseObject val io (fun _ => true) (4 * text.length + 4) ⟨1, []⟩ p) :=
    .bind _ fun p => .bind _ fun c => .bind _ fun _ => (json_all _).2.1 _ _
  rw [e, e]
  revert h
  generalize (trimText Bool.true text >>= fun p => rd p 0 >>= fun c => strchr [0x7b#8, 0x5b#8, 0] c >>= fun _ => parseObject val io mem (4 * text.length + 4) ⟨1, []⟩ p) = x
  generalize (trimText Bool.true text >>= fun p => rd p 0 >>= fun c => strchr [0x7b#8, 0x5b#8, 0] c >>= fun _ => parseObject val io (fun _ => true) (4 * text.length + 4) ⟨1, []⟩ p) = y
  intro h
  rcases h with rfl | ⟨b, m, rfl⟩
  · exact .inl rfl
  · exact .inr ⟨_, _, rfl⟩
end

/-! ### Tables -/

section
variable {ν : Type} {io : Json.NumIO ν} {mem : Nat → Bool}

theorem first_place (h : mem 1 = false ∨ mem 2 = false) (cell : Csv.Cell ν) : place mem (start mem) cell = .error .ub := by
  have : column mem (start (ν := ν) mem) = .error .ub := by
    unfold start request
    by_cases h1 : mem 1 = true
    · have h2 : mem 2 = false := h.resolve_left (by rw [h1]; simp)
      rw [if_pos (show mem (Alloc.mk 1 []).next = true from h1)]
      simp only [column, room, request, grow, List.length_nil, Nat.zero_le, ge_iff_le, if_true, Nat.mul_zero, Nat.zero_add, Nat.zero_lt_succ, okBind]
      rw [if_neg (show ¬ mem (1 + 1) = true by rw [h2]; simp)]
    · rw [if_neg (show ¬ mem (Alloc.mk 1 []).next = true from h1)]
      rfl
  unfold place
  rw [this]
  rfl

/-- **C151, deviation.** If there is no memory for one of the first two arrays, `zpl_csv_parse` of a text that it would accept accesses memory that it does not have. -/
theorem C151_csv_crash (h : mem 1 = false ∨ mem 2 = false) {hasHeader : Bool} {delim : Byte} {text : List Byte} {cols : List (Csv.Column ν)} (e : Csv.parse io hasHeader delim text = .ok (.none, cols)) :
    parseTable io mem hasHeader delim text = .error .ub := by
  have hl : ∃ st, Csv.parseLoop io delim (text.length + 1) ⟨[], 0, 0⟩ text = .ok (.none, st) ∧ st.cols ≠ [] := by
    unfold Csv.parse at e
    cases e1 : Csv.parseLoop io delim (text.length + 1) ⟨[], 0, 0⟩ text with
    | error => rw [e1] at e; cases e
    | ok r =>
      obtain ⟨err, st⟩ := r
      rw [e1, okBind] at e
      dsimp only at e
      by_cases he : err = .none
      · subst he
        refine ⟨st, rfl, fun hc => ?_⟩
        rw [if_neg (fun h => h rfl), if_pos (by rw [hc]; rfl)] at e
        cases e
      · rw [if_pos he] at e
        cases e
        exact absurd rfl he
  obtain ⟨st, e, hc⟩ := hl
  unfold parseTable
  have : tableLoop io mem delim (text.length + 1) (start mem) text = .error .ub := by
    rw [Csv.parseLoop] at e
    rw [tableLoop]
    cases e1 : Token.trim false text with
    | error => rw [e1] at e; cases e
    | ok k =>
      rw [e1, okBind] at e
      rw [okBind]
      dsimp only at e ⊢
      cases e2 : rd (text.drop k) 0 with
      | error => rw [e2] at e; cases e
      | ok c =>
        rw [e2, okBind] at e
        rw [okBind]
        split at e
        · cases e; exact absurd rfl hc
        · next hc0 =>
          rw [if_neg hc0]
          cases e3 : Csv.readCell io delim (text.drop k) with
          | error => rw [e3] at e; cases e
          | ok r =>
            rw [e3, okBind] at e
            rw [okBind]
            rcases r with _ | ⟨cell, d, q⟩
            · cases e
            · dsimp only
              rw [first_place h]
              rfl
  rw [this]
  rfl

theorem place_grows {s s' : Csv.St ν} {cell : Csv.Cell ν} (e : Csv.place s cell = .ok s') : s.cols.length ≤ s'.cols.length ∧ s.colc < s'.cols.length ∧ s'.colc = s.colc ∧ s'.total = s.total := by
  unfold Csv.place at e
  dsimp only at e
  cases e1 : rd (if s.colc ≥ s.cols.length then s.cols ++ [{ name := none, cells := [] }] else s.cols) s.colc with
  | error => rw [e1] at e; cases e
  | ok col =>
    rw [e1, okBind] at e
    obtain ⟨hi, -⟩ := rd_split e1
    unfold wr at e
    rw [if_pos hi] at e
    cases e
    dsimp only
    rw [List.length_set]
    refine ⟨?_, hi, rfl, rfl⟩
    split <;> simp

theorem advance_cols {delim d : Byte} {s s' : Csv.St ν} {p q : List Byte} (e : Csv.advance delim s d p = some (s', q)) : s'.cols = s.cols := by
  unfold Csv.advance at e
  split at e
  · cases e; rfl
  · split at e
    · split at e
      · cases e; rfl
      · cases e
    · cases e; rfl

theorem loop_grows {delim : Byte} (n : Nat) : ∀ {s : Csv.St ν} {p : List Byte} {err : Csv.Err} {s' : Csv.St ν}, Csv.parseLoop io delim n s p = .ok (err, s') → s.cols.length ≤ s'.cols.length := by
  induction n with
  | zero => intro s p err s' e; cases e
  | succ n ih =>
    intro s p err s' e
    rw [Csv.parseLoop] at e
    cases e1 : Token.trim false p with
    | error => rw [e1] at e; cases e
    | ok k =>
      rw [e1, okBind] at e
      dsimp only at e
      cases e2 : rd (p.drop k) 0 with
      | error => rw [e2] at e; cases e
      | ok c =>
        rw [e2, okBind] at e
        split at e
        · cases e; exact Nat.le_refl _
        · cases e3 : Csv.readCell io delim (p.drop k) with
          | error => rw [e3] at e; cases e
          | ok r =>
            rw [e3, okBind] at e
            rcases r with _ | ⟨cell, d, q⟩
            · cases e; exact Nat.le_refl _
            · dsimp only at e
              cases e4 : Csv.place s cell with
              | error => rw [e4] at e; cases e
              | ok t =>
                rw [e4, okBind] at e
                have ht := (place_grows e4).1
                cases e5 : Csv.advance delim t d q with
                | none => rw [e5] at e; cases e; exact ht
                | some r =>
                  obtain ⟨t', q'⟩ := r
                  rw [e5] at e
                  dsimp only at e
                  have ht' := advance_cols e5
                  cases e6 : rd q' 0 with
                  | error => rw [e6] at e; cases e
                  | ok c =>
                    rw [e6, okBind] at e
                    split at e
                    · have := ih e
                      rw [ht'] at this
                      exact Nat.le_trans ht this
                    · cases e; rw [ht']; exact ht

/-- The table `s`, for which there are only two arrays, instead of the table `t` of one column: it has its first 8 cells. -/
def Short (s : Table ν) (t : Csv.St ν) : Prop := s.colc = t.colc ∧ s.total = t.total ∧ ∃ cells : List (Csv.Cell ν), t.cols = [⟨none, cells⟩] ∧
  s.arr = some (1, 8) ∧ s.cols = [⟨none, 2, 8, cells.take 8⟩] ∧ 3 ≤ s.m.next

theorem short_place (hmem : ∀ i, 3 ≤ i → mem i = false) {s : Table ν} {t t' : Csv.St ν} (h : Short s t) {cell : Csv.Cell ν} (e : Csv.place t cell = .ok t') (ht : t'.cols.length ≤ 1) :
    ∃ s', place mem s cell = .ok s' ∧ Short s' t' := by
  obtain ⟨h1, h2, cells, h3, h4, h5, h6⟩ := h
  obtain ⟨g1, g2, g3, g4⟩ := place_grows e
  have h0 : t.colc = 0 := by omega
  have hc : column mem s = .ok s := by
    unfold column
    rw [h4]
    dsimp only
    rw [h5, h1, h0, if_neg (show ¬ 0 ≥ [(⟨none, 2, 8, cells.take 8⟩ : Col ν)].length by simp)]
  have e' : t' = { t with cols := [⟨none, cells ++ [cell]⟩] } := by
    unfold Csv.place at e
    rw [h0, h3] at e
    refine ((Except.ok.inj e).symm).trans ?_
    rw [h0]
    rfl
  unfold place
  rw [hc, okBind, h5, h1, h0, show rd [(⟨none, 2, 8, cells.take 8⟩ : Col ν)] 0 = .ok ⟨none, 2, 8, cells.take 8⟩ from rfl, okBind]
  dsimp only
  unfold room
  by_cases hl : (cells.take 8).length < 8
  · rw [if_pos hl, okBind]
    refine ⟨_, rfl, (h0.symm.trans g3.symm), h2.trans g4.symm, cells ++ [cell], by rw [e'], h4, ?_, h6⟩
    have : cells.length < 8 := by rw [List.length_take] at hl; omega
    rw [List.take_of_length_le (by omega), List.take_of_length_le (by rw [List.length_append, List.length_singleton]; omega)]
    rfl
  · rw [if_neg hl]
    unfold request
    rw [if_neg (by rw [hmem _ h6]; simp)]
    refine ⟨_, rfl, (h0.symm.trans g3.symm), h2.trans g4.symm, cells ++ [cell], by rw [e'], h4, ?_, Nat.le_succ_of_le h6⟩
    have : 8 ≤ cells.length := by rw [List.length_take] at hl; omega
    dsimp only
    rw [List.take_append_of_le_length this]

theorem short_advance {delim d : Byte} {s : Table ν} {t t' : Csv.St ν} (h : Short s t) {p q : List Byte} (e : Csv.advance delim t d p = some (t', q)) :
    ∃ s', advance delim s d p = some (s', q) ∧ Short s' t' := by
  obtain ⟨h1, h2, h3⟩ := h
  unfold Csv.advance at e
  unfold advance
  split at e
  · next hc => rw [if_pos hc]; cases e; exact ⟨_, rfl, by rw [h1], h2, h3⟩
  · next hc =>
    rw [if_neg hc]
    split at e
    · next hc =>
      rw [if_pos hc]
      split at e
      · next hc => rw [h1, h2, if_pos hc]; cases e; exact ⟨_, rfl, rfl, rfl, h3⟩
      · cases e
    · next hc => rw [if_neg hc]; cases e; exact ⟨_, rfl, h1, h2, h3⟩

theorem short_advance_none {delim d : Byte} {s : Table ν} {t : Csv.St ν} (h : Short s t) {p : List Byte} (e : Csv.advance delim t d p = none) : advance delim s d p = none := by
  obtain ⟨h1, h2, h3⟩ := h
  unfold Csv.advance at e
  unfold advance
  split at e
  · cases e
  · next hc =>
    rw [if_neg hc]
    split at e
    · next hc =>
      rw [if_pos hc]
      split at e
      · cases e
      · next hc => rw [h1, h2, if_neg hc]
    · cases e

/-- The table before the first cell and the first two arrays. -/
theorem short_first (h1 : mem 1 = true) (h2 : mem 2 = true) (cell : Csv.Cell ν) :
    place mem (start mem) cell = .ok ⟨⟨3, [2, 1]⟩, some (1, 8), [⟨none, 2, 8, [cell]⟩], 0, 0⟩ := by
  have hs : start (ν := ν) mem = ⟨⟨2, [1]⟩, some (1, 8), [], 0, 0⟩ := by
    unfold start request
    rw [if_pos (show mem (Alloc.mk 1 []).next = true from h1)]
    rfl
  have hc : column mem (start (ν := ν) mem) = .ok ⟨⟨3, [2, 1]⟩, some (1, 8), [⟨none, 2, 8, []⟩], 0, 0⟩ := by
    rw [hs]
    unfold column
    dsimp only
    rw [if_pos (show 0 ≥ ([] : List (Col ν)).length from Nat.le_refl _), room, if_pos (show ([] : List (Col ν)).length < 8 by simp), okBind]
    dsimp only
    unfold request
    rw [if_pos h2]
    rfl
  unfold place
  rw [hc]
  rfl

theorem short_loop (hmem : ∀ i, 3 ≤ i → mem i = false) {delim : Byte} (n : Nat) : ∀ {s : Table ν} {t : Csv.St ν} {p : List Byte} {err : Csv.Err} {t' : Csv.St ν}, Short s t →
    Csv.parseLoop io delim n t p = .ok (err, t') → t'.cols.length ≤ 1 → ∃ s', tableLoop io mem delim n s p = .ok (err, s') ∧ Short s' t' := by
  induction n with
  | zero => intro s t p err s' _ e; cases e
  | succ n ih =>
    intro s t p err s' h e hl
    rw [Csv.parseLoop] at e
    rw [tableLoop]
    cases e1 : Token.trim false p with
    | error => rw [e1] at e; cases e
    | ok k =>
      rw [e1, okBind] at e
      rw [okBind]
      dsimp only at e ⊢
      cases e2 : rd (p.drop k) 0 with
      | error => rw [e2] at e; cases e
      | ok c =>
        rw [e2, okBind] at e
        rw [okBind]
        split at e
        · next hc => cases e; rw [if_pos hc]; exact ⟨_, rfl, h⟩
        · next hc =>
          rw [if_neg hc]
          cases e3 : Csv.readCell io delim (p.drop k) with
          | error => rw [e3] at e; cases e
          | ok r =>
            rw [e3, okBind] at e
            rw [okBind]
            rcases r with _ | ⟨cell, d, q⟩
            · cases e; exact ⟨_, rfl, h⟩
            · dsimp only at e ⊢
              cases e4 : Csv.place t cell with
              | error => rw [e4] at e; cases e
              | ok t1 =>
                rw [e4, okBind] at e
                have hsh : t1.cols.length ≤ 1 → ∃ s', place mem s cell = .ok s' ∧ Short s' t1 := short_place hmem h e4
                cases e5 : Csv.advance delim t1 d q with
                | none =>
                  rw [e5] at e
                  cases e
                  obtain ⟨s1, f1, f2⟩ := hsh hl
                  rw [f1, okBind, short_advance_none f2 e5]
                  exact ⟨_, rfl, f2⟩
                | some r =>
                  obtain ⟨t2, q'⟩ := r
                  rw [e5] at e
                  dsimp only at e
                  have ht' := advance_cols e5
                  cases e6 : rd q' 0 with
                  | error => rw [e6] at e; cases e
                  | ok c =>
                    rw [e6, okBind] at e
                    split at e
                    · next hc =>
                      have hg := loop_grows n e
                      rw [ht'] at hg
                      obtain ⟨s1, f1, f2⟩ := hsh (Nat.le_trans hg hl)
                      obtain ⟨s2, f3, f4⟩ := short_advance f2 e5
                      rw [f1, okBind, f3]
                      dsimp only
                      rw [e6, okBind, if_pos hc]
                      exact ih f4 e hl
                    · next hc =>
                      cases e
                      obtain ⟨s1, f1, f2⟩ := hsh (by rw [← ht']; exact hl)
                      obtain ⟨s2, f3, f4⟩ := short_advance f2 e5
                      rw [f1, okBind, f3]
                      dsimp only
                      rw [e6, okBind, if_neg hc]
                      exact ⟨_, rfl, f4⟩

/-- **C151, deviation.** If memory suffices for the first two arrays only, every table of one column is accepted without an error, but only its first 8 cells are there. -/
theorem C151_csv_cells_lost (h1 : mem 1 = true) (h2 : mem 2 = true) (hmem : ∀ i, 3 ≤ i → mem i = false) {delim : Byte} {text : List Byte} {col : Csv.Column ν}
    (e : Csv.parse io false delim text = .ok (.none, [col])) : ∃ s, parseTable io mem false delim text = .ok (.none, s) ∧ s.columns = [⟨col.name, col.cells.take 8⟩] := by
  have hl : ∃ st, Csv.parseLoop io delim (text.length + 1) ⟨[], 0, 0⟩ text = .ok (.none, st) ∧ st.cols = [col] := by
    unfold Csv.parse at e
    cases e1 : Csv.parseLoop io delim (text.length + 1) ⟨[], 0, 0⟩ text with
    | error => rw [e1] at e; cases e
    | ok r =>
      obtain ⟨err, st⟩ := r
      rw [e1, okBind] at e
      dsimp only at e
      by_cases he : err = .none
      · subst he
        rw [if_neg (fun h => h rfl)] at e
        split at e
        · exact absurd (Prod.mk.inj (Except.ok.inj e)).1 (by simp)
        · rw [if_neg (show ¬ false = true by decide)] at e
          have := (Prod.mk.inj (Except.ok.inj e)).2
          exact ⟨st, rfl, this⟩
      · rw [if_pos he] at e
        exact absurd (Prod.mk.inj (Except.ok.inj e)).1 he
  obtain ⟨st, e, hc⟩ := hl
  have : ∃ s, tableLoop io mem delim (text.length + 1) (start mem) text = .ok (.none, s) ∧ Short s st := by
    rw [Csv.parseLoop] at e
    rw [tableLoop]
    cases e1 : Token.trim false text with
    | error => rw [e1] at e; cases e
    | ok k =>
      rw [e1, okBind] at e
      rw [okBind]
      dsimp only at e ⊢
      cases e2 : rd (text.drop k) 0 with
      | error => rw [e2] at e; cases e
      | ok c =>
        rw [e2, okBind] at e
        rw [okBind]
        split at e
        · cases e; exact absurd hc (by simp)
        · next hc0 =>
          rw [if_neg hc0]
          cases e3 : Csv.readCell io delim (text.drop k) with
          | error => rw [e3] at e; cases e
          | ok r =>
            rw [e3, okBind] at e
            rw [okBind]
            rcases r with _ | ⟨cell, d, q⟩
            · cases e
            · dsimp only at e ⊢
              rw [show Csv.place ⟨[], 0, 0⟩ cell = .ok ⟨[⟨none, [cell]⟩], 0, 0⟩ from rfl, okBind] at e
              rw [short_first h1 h2, okBind]
              have f2 : Short (ν := ν) ⟨⟨3, [2, 1]⟩, some (1, 8), [⟨none, 2, 8, [cell]⟩], 0, 0⟩ ⟨[⟨none, [cell]⟩], 0, 0⟩ := ⟨rfl, rfl, [cell], rfl, rfl, rfl, Nat.le_refl _⟩
              cases e5 : Csv.advance delim ⟨[⟨none, [cell]⟩], 0, 0⟩ d q with
              | none => rw [e5] at e; cases e
              | some r =>
                obtain ⟨t2, q'⟩ := r
                rw [e5] at e
                dsimp only at e
                obtain ⟨s2, f3, f4⟩ := short_advance f2 e5
                rw [f3]
                dsimp only
                cases e6 : rd q' 0 with
                | error => rw [e6] at e; cases e
                | ok c =>
                  rw [e6, okBind] at e
                  rw [okBind]
                  split at e
                  · next hc' => rw [if_pos hc']; exact short_loop hmem _ f4 e (by rw [hc]; exact Nat.le_refl _)
                  · next hc' => rw [if_neg hc']; cases e; exact ⟨_, rfl, f4⟩
  obtain ⟨s, f1, -, -, cells, g1, g2, g3, -⟩ := this
  unfold parseTable
  rw [f1, okBind]
  dsimp only
  rw [if_neg (fun h => h rfl), g2, if_neg (by simp), g3, if_neg (by simp), if_neg (by decide)]
  refine ⟨_, rfl, ?_⟩
  rw [g1] at hc
  rw [← (List.cons.inj hc).1]
  unfold Table.columns
  rw [g3]
  rfl
end

/-! ### Examples -/

/-- Nine lines `k`. -/
def nine : List Byte := [0x6b#8, 0x0a#8, 0x6b#8, 0x0a#8, 0x6b#8, 0x0a#8, 0x6b#8, 0x0a#8, 0x6b#8, 0x0a#8, 0x6b#8, 0x0a#8, 0x6b#8, 0x0a#8, 0x6b#8, 0x0a#8, 0x6b#8, 0]

/-- There are no numbers. -/
def noNumbers : Json.NumIO Unit := ⟨fun _ => .ok (none, 0), fun o _ => .ok o⟩

def accepted : Except Fault (Csv.Err × List (Csv.Column Unit)) → Option Nat
  | .ok (.none, [col]) => some col.cells.length
  | _ => none

/-- The table of nine cells is accepted, as C151_csv_crash and C151_csv_cells_lost demand. -/
theorem nine_accepted : ∃ col, Csv.parse noNumbers false 0x2c#8 nine = .ok (.none, [col]) ∧ col.cells.length = 9 := by
  have h : accepted (Csv.parse noNumbers false 0x2c#8 nine) = some 9 := by decide +kernel
  revert h
  generalize Csv.parse noNumbers false 0x2c#8 nine = x
  intro h
  unfold accepted at h
  split at h
  · exact ⟨_, rfl, Option.some.inj h⟩
  · cases h

example : ∃ (s : Table Unit) (col : Csv.Column Unit), parseTable noNumbers (fun i => decide (i ≤ 2)) false 0x2c#8 nine = .ok (.none, s) ∧ s.columns = [col] ∧ col.cells.length = 8 := by
  obtain ⟨col, e, h⟩ := nine_accepted
  obtain ⟨s, h1, h2⟩ := C151_csv_cells_lost (mem := fun i => decide (i ≤ 2)) rfl rfl (fun i hi => decide_eq_false (by omega)) e
  exact ⟨s, _, h1, h2, by rw [List.length_take, h]; rfl⟩

example : parseTable noNumbers (fun i => decide (i ≠ 2)) false 0x2c#8 nine = .error .ub := by
  obtain ⟨col, e, -⟩ := nine_accepted
  exact C151_csv_crash (.inr rfl) e

def left : Except Fault (Csv.Err × Table Unit) → Option (List Nat)
  | .ok (_, s) => some s.m.heap
  | _ => none

/-- With all the memory three arrays are allocated, and one of them is freed again while parsing. -/
example : left (parseTable noNumbers (fun _ => true) false 0x2c#8 nine) = some [3, 1] := by decide +kernel

section
variable {ρ : Type} (F : Number.Reals ρ) (one : ρ)

/-- `h?q`. -/
example : ∃ r a, parseUri F one (fun _ => true) [0x68#8, 0x3f#8, 0x71#8, 0] = .ok (r, a) ∧ a.m.heap = [1] ∧ r.params.length = 1 := ⟨_, _, rfl, rfl, rfl⟩

example : ∃ r, UriDoc.parse F one [0x68#8, 0x3f#8, 0x71#8, 0] = .ok r ∧ r.params ≠ [] := ⟨_, rfl, by simp⟩

example : parseUri F one (fun _ => false) [0x68#8, 0x3f#8, 0x71#8, 0] = .error .ub := rfl

/-- The origin is lost. -/
example : UriDoc.parse F one [0x68#8, 0] = .ok ⟨some 0, [], [0x68#8, 0]⟩ ∧ parseUri F one (fun _ => false) [0x68#8, 0] = .ok (⟨none, [], [0x68#8, 0]⟩, ⟨⟨2, []⟩, none, 0⟩) := ⟨rfl, rfl⟩
end

/-- `[[]]` with memory for one array only. -/
example {ν : Type} (val : Json.Kind ν → Adt.Value) (io : Json.NumIO ν) : ∃ root m, JsonMem.parse val io (fun i => decide (i = 1)) [0x5b#8, 0x5b#8, 0x5d#8, 0x5d#8, 0] = .ok (some .outOfMemory, root, m) := ⟨_, _, rfl⟩

end Zpl.ParserMem
