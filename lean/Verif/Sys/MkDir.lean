import Verif.Sys.Path

/-!
# Making and removing folders (code/source/core/file_misc.c:212-272)  -  C165

`zpl_path_mkdir`, `zpl_path_mkdir_recursive` and `zpl_path_rmdir` over a disk with files and folders (POSIX).  Simplifications: no links; the rights of one user, who owns what they make; the `umask`
takes no right from the owner. -/

namespace Zpl.MkDir

open Zpl.Str

/-! ## The system -/

abbrev Comp := List Byte
/-- Where something is: the names of the folders on the way from the root, and its own. -/
abbrev Place := List Comp

inductive Kind where
  | file
  | folder (search write : Bool)
  deriving DecidableEq, Repr

abbrev Disk := List (Place × Kind)

def look (d : Disk) (p : Place) : Option Kind := (d.find? (fun e => decide (e.1 = p))).map (·.2)

inductive Errno where
  | perm | acces | exist | nametoolong | noent | notempty | notdir | inval | busy
  deriving DecidableEq, Repr

def slash : Byte := 0x2f#8
def dot : Comp := [0x2e#8]
def dotdot : Comp := [0x2e#8, 0x2e#8]

/-- What is between the slashes of a path. -/
def parts : List Byte → List Comp
  | [] => [[]]
  | c :: s => if c = slash then [] :: parts s else match parts s with
    | p :: ps => (c :: p) :: ps
    | [] => [[c]]

/-- The steps of a path: several slashes count as one. -/
def steps (s : List Byte) : List Comp := (parts s).filter (fun c => decide (c ≠ []))

def origin (cwd : Place) (s : List Byte) : Place := if s[0]? = some slash then [] else cwd

/-- Going through folders, each of which must be there and may be searched. -/
def walk (d : Disk) : Place → List Comp → Except Errno Place
  | p, [] => .ok p
  | p, c :: cs =>
    match look d p with
    | none => .error .noent
    | some .file => .error .notdir
    | some (.folder search _) =>
      if search = false then .error .acces
      else if c.length > 255 then .error .nametoolong
      else walk d (if c = dot then p else if c = dotdot then p.dropLast else p ++ [c]) cs

/-- The folder a path leads to, and the last step; `none` for the root. -/
def parent (d : Disk) (cwd : Place) (s : List Byte) : Except Errno (Option (Place × Comp × Bool)) :=
  if s = [] then .error .noent
  else if 4096 ≤ s.length then .error .nametoolong
  else match (steps s).getLast? with
    | none => .ok none
    | some c =>
      match walk d (origin cwd s) (steps s).dropLast with
      | .error e => .error e
      | .ok p =>
        match look d p with
        | none => .error .noent
        | some .file => .error .notdir
        | some (.folder search write) =>
          if search = false then .error .acces
          else if c.length > 255 then .error .nametoolong
          else .ok (some (p, c, write))

/-- `mkdir(2)`; `new` is what a folder with the mode asked for is. -/
def sysMkdir (cwd : Place) (new : Kind) (d : Disk) (s : List Byte) : Except Errno Disk :=
  match parent d cwd s with
  | .error e => .error e
  | .ok none => .error .exist
  | .ok (some (p, c, write)) =>
    if c = dot ∨ c = dotdot then .error .exist
    else match look d (p ++ [c]) with
      | some _ => .error .exist
      | none => if write then .ok (d ++ [(p ++ [c], new)]) else .error .acces

/-- Is there anything in the folder `p`? -/
def occupied (d : Disk) (p : Place) : Bool := d.any (fun e => decide (e.1 ≠ [] ∧ e.1.dropLast = p))

/-- `rmdir(2)` -/
def sysRmdir (cwd : Place) (d : Disk) (s : List Byte) : Except Errno Disk :=
  match parent d cwd s with
  | .error e => .error e
  | .ok none => .error .busy
  | .ok (some (p, c, write)) =>
    if c = dot then .error .inval
    else if c = dotdot then .error .notempty
    else match look d (p ++ [c]) with
      | none => .error .noent
      | some k =>
        if write = false then .error .acces
        else match k with
          | .file => .error .notdir
          | .folder _ _ => if occupied d (p ++ [c]) then .error .notempty else .ok (d.filter (fun e => decide (e.1 ≠ p ++ [c])))

/-! ## Model -/

/-- The results of `zpl_file_error` that occur. -/
inductive Err where
  | none | exists | notExists | permission | notEmpty | nameTooLong | unknown
  deriving DecidableEq, Repr

/-- The rights of the owner in `mode`. -/
def made (mode : BitVec 32) : Kind := .folder (mode.getLsbD 6) (mode.getLsbD 7)

/-- file_misc.c:222-229 -/
def mkdirErr : Errno → Err
  | .perm => .permission
  | .acces => .permission
  | .exist => .exists
  | .nametoolong => .nameTooLong
  | _ => .unknown

/-- file_misc.c:212-230 `zpl_path_mkdir` -/
def mkdir (cwd : Place) (path : List Byte) (mode : BitVec 32) (d : Disk) : Except Fault (Err × Disk) := do
  let s ← Path.textAt path
  match sysMkdir cwd (made mode) d s with
  | .ok d' => .ok (.none, d')
  | .error e => .ok (mkdirErr e, d)

/-- The calls of `zpl_path_mkdir` one after the other; their results are not looked at. -/
def makeAll (cwd : Place) (mode : BitVec 32) : List (List Byte) → Disk → Except Fault Disk
  | [], d => .ok d
  | t :: ts, d => do
    let r ← mkdir cwd (t ++ [0]) mode d
    makeAll cwd mode ts r.2

/-- file_misc.c:232-251 `zpl_path_mkdir_recursive`; which folders it asks for is `Path.mkdirRecursive`. -/
def mkdirRecursive (maxPath : Nat) (cwd : Place) (path : List Byte) (mode : BitVec 32) (d : Disk) : Except Fault (Int × Disk) := do
  match ← Path.mkdirRecursive maxPath path with
  | none => .ok (-1, d)
  | some calls => do
    let d' ← makeAll cwd mode calls d
    .ok (0, d')

/-- file_misc.c:263-271 -/
def rmdirErr : Errno → Err
  | .perm => .permission
  | .acces => .permission
  | .noent => .notExists
  | .notempty => .notEmpty
  | .nametoolong => .nameTooLong
  | _ => .unknown

/-- file_misc.c:253-272 `zpl_path_rmdir` -/
def rmdir (cwd : Place) (path : List Byte) (d : Disk) : Except Fault (Err × Disk) := do
  let s ← Path.textAt path
  match sysRmdir cwd d s with
  | .ok d' => .ok (.none, d')
  | .error e => .ok (rmdirErr e, d)

/-! ## Specification -/

/-- The names in a path, without those that mean nothing. -/
def clean (s : List Byte) : List Comp := (parts s).filter (fun c => decide (c ≠ [] ∧ c ≠ dot))

/-- The place a path means. -/
def place (cwd : Place) (s : List Byte) : Place := origin cwd s ++ clean s

/-- A path as the system takes them, without `..`. -/
structure Plain (s : List Byte) : Prop where
  text : Text s
  some : s ≠ []
  short : s.length < 4096
  up : dotdot ∉ parts s
  names : ∀ c ∈ parts s, c.length ≤ 255

/-- The folders above `from ++ q` are there and may be searched. -/
def Reach (d : Disk) (start q : Place) : Prop := ∀ k < q.length, ∃ w, look d (start ++ q.take k) = some (.folder true w)

/-- Nothing is in the way of making all of `q` below `start`: what is there is a folder that may be searched, and changed where something is missing; what is made may be used likewise. -/
def Way (d : Disk) (start q : Place) (new : Kind) : Prop := ∀ k ≤ q.length,
  (look d (start ++ q.take k) = none ∧ 0 < k ∧ (k < q.length → new = .folder true true)) ∨
  (∃ s w, look d (start ++ q.take k) = some (.folder s w) ∧ (k < q.length → s = true ∧ (look d (start ++ q.take (k + 1)) = none → w = true)))

/-- Whatever is there is in a folder. -/
def Tree (d : Disk) : Prop := ∀ p c, look d (p ++ [c]) ≠ none → ∃ s w, look d p = some (.folder s w)

/-! ## Lemmas -/

theorem ok_bind {α β : Type} (a : α) (f : α → Except Fault β) : ((Except.ok a : Except Fault α) >>= f) = f a := rfl

theorem parts_ne (s : List Byte) : parts s ≠ [] := by
  cases s with
  | nil => simp [parts]
  | cons c s =>
    unfold parts
    split
    · simp
    · split <;> simp

theorem parts_append (a b : List Byte) : parts (a ++ slash :: b) = parts a ++ parts b := by
  induction a with
  | nil => simp [parts]
  | cons c a ih =>
    rw [List.cons_append, parts, parts, ih]
    by_cases hc : c = slash
    · rw [if_pos hc, if_pos hc]; rfl
    · rw [if_neg hc, if_neg hc]
      cases h : parts a with
      | nil => exact absurd h (parts_ne a)
      | cons p ps => rfl

theorem parts_one {s : List Byte} (h : slash ∉ s) : parts s = [s] := by
  induction s with
  | nil => rfl
  | cons c s ih =>
    rw [parts, if_neg (fun e => h (by simp [e])), ih (fun e => h (by simp [e]))]

theorem look_append (d : Disk) (p q : Place) (k : Kind) : look (d ++ [(p, k)]) q = if look d q = none ∧ q = p then some k else look d q := by
  unfold look
  rw [List.find?_append]
  cases h : d.find? (fun e => decide (e.1 = q)) with
  | some e => simp
  | none =>
    by_cases hq : q = p
    · subst hq; simp
    · have : ¬ p = q := fun e => hq e.symm
      simp [hq, this]

theorem look_filter (d : Disk) (p q : Place) : look (d.filter (fun e => decide (e.1 ≠ p))) q = if q = p then none else look d q := by
  unfold look
  rw [List.find?_filter]
  by_cases hq : q = p
  · subst hq
    rw [if_pos rfl]
    have : d.find? (fun a => decide (decide (a.1 ≠ q) = true ∧ decide (a.1 = q) = true)) = none := by
      rw [List.find?_eq_none]
      intro x _
      simp
    rw [this]; rfl
  · rw [if_neg hq]
    congr 2
    funext e
    by_cases he : e.1 = q
    · simp [he, hq]
    · simp [he]

/-- The parts that mean something. -/
def tidy (cs : List Comp) : List Comp := cs.filter (fun c => decide (c ≠ dot))

theorem clean_eq (s : List Byte) : clean s = tidy (steps s) := by
  unfold clean tidy steps
  rw [List.filter_filter]
  congr 1
  funext c
  by_cases h : c = [] <;> by_cases h2 : c = dot <;> simp [h, h2]

theorem walk_place {d : Disk} : ∀ (cs : List Comp) (p r : Place), dotdot ∉ cs → walk d p cs = .ok r → r = p ++ tidy cs
  | [], p, r, _, h => by
    simp only [walk, Except.ok.injEq] at h
    simp [tidy, h]
  | c :: cs, p, r, hu, h => by
    rw [walk] at h
    have hc : c ≠ dotdot := fun e => hu (by simp [e])
    split at h
    · cases h
    · cases h
    · split at h
      · cases h
      · split at h
        · cases h
        · have := walk_place cs _ r (fun e => hu (by simp [e])) h
          rw [this]
          by_cases hd : c = dot
          · simp [tidy, hd]
          · simp [tidy, hd]

theorem walk_ok {d : Disk} : ∀ (cs : List Comp) (p : Place), dotdot ∉ cs → (∀ c ∈ cs, c.length ≤ 255) → (∀ k ≤ (tidy cs).length, ∃ w, look d (p ++ (tidy cs).take k) = some (.folder true w)) →
    walk d p cs = .ok (p ++ tidy cs)
  | [], p, _, _, _ => by simp [walk, tidy]
  | c :: cs, p, hu, hl, hf => by
    have hc : c ≠ dotdot := fun e => hu (by simp [e])
    obtain ⟨w, hw⟩ := hf 0 (Nat.zero_le _)
    rw [List.take_zero, List.append_nil] at hw
    have hl1 : ¬ (c.length > 255) := by have := hl c (by simp); omega
    rw [walk, hw]
    dsimp only
    rw [if_neg (by decide), if_neg hl1, if_neg hc]
    by_cases hd : c = dot
    · rw [if_pos hd]
      have e : tidy (c :: cs) = tidy cs := by simp [tidy, hd]
      rw [e] at hf ⊢
      exact walk_ok cs p (fun e => hu (by simp [e])) (fun x hx => hl x (by simp [hx])) hf
    · rw [if_neg hd]
      have e : tidy (c :: cs) = c :: tidy cs := by simp [tidy, hd]
      rw [e] at hf ⊢
      rw [walk_ok cs (p ++ [c]) (fun e => hu (by simp [e])) (fun x hx => hl x (by simp [hx]))]
      · simp
      · intro k hk
        obtain ⟨w', hw'⟩ := hf (k + 1) (by simpa using hk)
        exact ⟨w', by simpa using hw'⟩

theorem steps_sub {s : List Byte} {c : Comp} (h : c ∈ steps s) : c ∈ parts s := (List.mem_filter.1 h).1

theorem dropLast_sub {α : Type} {l : List α} {x : α} (h : x ∈ l.dropLast) : x ∈ l := List.dropLast_subset _ h

/-- The folder a plain path leads to. -/
theorem parent_place {d : Disk} {cwd : Place} {s : List Byte} (hu : dotdot ∉ parts s) {p : Place} {c : Comp} {w : Bool} (h : parent d cwd s = .ok (some (p, c, w))) :
    steps s ≠ [] ∧ (steps s).getLast? = some c ∧ p = origin cwd s ++ tidy (steps s).dropLast ∧ look d p = some (.folder true w) ∧ (c ≠ dot → p ++ [c] = place cwd s) := by
  unfold parent at h
  split at h
  · cases h
  split at h
  · cases h
  split at h
  · cases h
  · rename_i c' hc'
    split at h
    · cases h
    · rename_i p' hp'
      split at h
      · cases h
      · cases h
      · rename_i sr wr hlook
        split at h
        · cases h
        · rename_i hs
          split at h
          · cases h
          · simp only [Except.ok.injEq, Option.some.injEq, Prod.mk.injEq] at h
            obtain ⟨rfl, rfl, rfl⟩ := h
            have hp := walk_place _ _ _ (fun e => hu (steps_sub (dropLast_sub e))) hp'
            have hs' : sr = true := by simpa using hs
            subst hs'
            have hne : steps s ≠ [] := by intro e; rw [e] at hc'; cases hc'
            refine ⟨hne, hc', hp, hlook, ?_⟩
            intro hd
            have hlast : steps s = (steps s).dropLast ++ [c'] := by
              have := List.dropLast_concat_getLast hne
              rw [List.getLast?_eq_some_getLast hne, Option.some.injEq] at hc'
              rw [hc'] at this
              exact this.symm
            rw [place, clean_eq, hlast, hp]
            simp [tidy, hd]

/-- A plain path whose folders can be reached leads to its place. -/
theorem parent_ok {d : Disk} {cwd : Place} {s : List Byte} (hs : Plain s) {q : List Comp} {c : Comp} (hq : clean s = q ++ [c]) (hl : (steps s).getLast? = some c)
    (hr : Reach d (origin cwd s) (clean s)) : ∃ w, look d (origin cwd s ++ q) = some (.folder true w) ∧ parent d cwd s = .ok (some (origin cwd s ++ q, c, w)) := by
  have hne : steps s ≠ [] := by intro e; rw [e] at hl; cases hl
  have hlast : steps s = (steps s).dropLast ++ [c] := by
    have := List.dropLast_concat_getLast hne
    rw [List.getLast?_eq_some_getLast hne, Option.some.injEq] at hl
    rw [hl] at this
    exact this.symm
  have hcd : c ≠ dot := by
    intro e
    have : c ∈ clean s := by rw [hq]; simp
    unfold clean at this
    have := (List.mem_filter.1 this).2
    simp [e] at this
  have hq2 : q = tidy (steps s).dropLast := by
    have h := clean_eq s
    rw [hq, hlast] at h
    simp only [tidy, List.filter_append] at h ⊢
    have h2 : List.filter (fun c => decide (c ≠ dot)) [c] = [c] := by simp [hcd]
    rw [h2] at h
    exact List.append_cancel_right h
  have hw : walk d (origin cwd s) (steps s).dropLast = .ok (origin cwd s ++ q) := by
    rw [walk_ok _ _ (fun e => hs.up (steps_sub (dropLast_sub e))) (fun x hx => hs.names x (steps_sub (dropLast_sub hx))), hq2]
    intro k hk
    rw [← hq2] at hk ⊢
    obtain ⟨w, hw⟩ := hr k (by rw [hq]; simp; omega)
    rw [hq, List.take_append_of_le_length hk] at hw
    exact ⟨w, hw⟩
  obtain ⟨w, hw2⟩ := hr q.length (by rw [hq]; simp)
  rw [hq, List.take_left' rfl] at hw2
  refine ⟨w, hw2, ?_⟩
  have hc : c ∈ steps s := by rw [hlast]; simp
  have hcl : ¬ (c.length > 255) := by have := hs.names c (steps_sub hc); omega
  unfold parent
  rw [if_neg hs.some, if_neg (by have := hs.short; omega), hl]
  dsimp only
  rw [hw]
  dsimp only
  rw [hw2]
  dsimp only
  rw [if_neg (by decide), if_neg hcl]

/-- All that `mkdir` can do to the disk. -/
theorem sysMkdir_only {cwd : Place} {new : Kind} {d d' : Disk} {s : List Byte} (hu : dotdot ∉ parts s) (h : sysMkdir cwd new d s = .ok d') :
    look d (place cwd s) = none ∧ d' = d ++ [(place cwd s, new)] ∧ ∃ p c w, place cwd s = p ++ [c] ∧ look d p = some (.folder true w) ∧ w = true := by
  unfold sysMkdir at h
  split at h
  · cases h
  · cases h
  · rename_i p c w hp
    obtain ⟨-, -, -, h4, h5⟩ := parent_place hu hp
    split at h
    · cases h
    · rename_i hcd
      have e := h5 (fun e => hcd (Or.inl e))
      split at h
      · cases h
      · rename_i hl
        rw [e] at hl h
        split at h
        · rename_i hw
          simp only [Except.ok.injEq] at h
          exact ⟨hl, h.symm, p, c, w, e.symm, h4, hw⟩
        · cases h

theorem mkdir_eq (cwd : Place) {s : List Byte} (hs : Text s) (rest : List Byte) (mode : BitVec 32) (d : Disk) : mkdir cwd (s ++ 0 :: rest) mode d =
    .ok (match sysMkdir cwd (made mode) d s with | .ok d' => (.none, d') | .error e => (mkdirErr e, d)) := by
  unfold mkdir
  rw [Path.textAt_ok hs, ok_bind]
  cases sysMkdir cwd (made mode) d s <;> rfl

theorem rmdir_eq (cwd : Place) {s : List Byte} (hs : Text s) (rest : List Byte) (d : Disk) : rmdir cwd (s ++ 0 :: rest) d =
    .ok (match sysRmdir cwd d s with | .ok d' => (.none, d') | .error e => (rmdirErr e, d)) := by
  unfold rmdir
  rw [Path.textAt_ok hs, ok_bind]
  cases sysRmdir cwd d s <;> rfl

theorem clean_split {s : List Byte} (h : clean s ≠ []) : ∃ q c, clean s = q ++ [c] :=
  ⟨(clean s).dropLast, (clean s).getLast h, (List.dropLast_concat_getLast h).symm⟩

/-! ## Properties of the single calls -/

/-- **C165.**  `zpl_path_mkdir` of a path whose folders can be reached: it exists - or may not be made - or is made, and nothing else changes. -/
theorem C165_mkdir {cwd : Place} {s : List Byte} (hs : Plain s) (rest : List Byte) (mode : BitVec 32) {d : Disk} {q : List Comp} {c : Comp} (hq : clean s = q ++ [c]) (hl : (steps s).getLast? = some c)
    (hr : Reach d (origin cwd s) (clean s)) :
    (look d (place cwd s) ≠ none → mkdir cwd (s ++ 0 :: rest) mode d = .ok (.exists, d)) ∧
    (look d (place cwd s) = none → look d (origin cwd s ++ q) = some (.folder true false) → mkdir cwd (s ++ 0 :: rest) mode d = .ok (.permission, d)) ∧
    (look d (place cwd s) = none → look d (origin cwd s ++ q) = some (.folder true true) → ∃ d', mkdir cwd (s ++ 0 :: rest) mode d = .ok (.none, d') ∧
      ∀ p, look d' p = if p = place cwd s then some (made mode) else look d p) := by
  obtain ⟨w, hw, hp⟩ := parent_ok hs hq hl hr
  have hcd : ¬ (c = dot ∨ c = dotdot) := by
    have hc : c ∈ clean s := by rw [hq]; simp
    unfold clean at hc
    have h1 := List.mem_filter.1 hc
    rintro (e | e)
    · simp [e] at h1
    · exact hs.up (e ▸ h1.1)
  have he : origin cwd s ++ q ++ [c] = place cwd s := by rw [place, hq, List.append_assoc]
  have hm : sysMkdir cwd (made mode) d s = match look d (place cwd s) with
      | some _ => .error .exist
      | none => if w then .ok (d ++ [(place cwd s, made mode)]) else .error .acces := by
    unfold sysMkdir
    rw [hp]
    dsimp only
    rw [if_neg hcd, he]
  rw [mkdir_eq cwd hs.text, hm]
  refine ⟨fun h => ?_, fun h h2 => ?_, fun h h2 => ?_⟩
  · cases e : look d (place cwd s) with
    | none => exact absurd e h
    | some k => rfl
  · rw [hw] at h2
    injection h2 with h2
    injection h2 with _ h2
    rw [h, h2]
    rfl
  · rw [hw] at h2
    injection h2 with h2
    injection h2 with _ h2
    rw [h, h2]
    refine ⟨_, rfl, ?_⟩
    intro p
    rw [look_append]
    by_cases hpp : p = place cwd s
    · subst hpp; simp [h]
    · simp [hpp]

/-- **C165.**  `zpl_path_mkdir` makes nothing, or one folder where there was nothing, in a folder that is there; it reports success exactly if it has. -/
theorem C165_mkdir_only {cwd : Place} {s : List Byte} (hs : Plain s) (rest : List Byte) (mode : BitVec 32) (d : Disk) :
    ∃ r d', mkdir cwd (s ++ 0 :: rest) mode d = .ok (r, d') ∧ (r ≠ .none → d' = d) ∧
      (r = .none → look d (place cwd s) = none ∧ ∀ p, look d' p = if p = place cwd s then some (made mode) else look d p) := by
  rw [mkdir_eq cwd hs.text]
  cases h : sysMkdir cwd (made mode) d s with
  | error e => exact ⟨_, _, rfl, fun _ => rfl, fun h => by cases e <;> cases h⟩
  | ok d' =>
    obtain ⟨h1, h2, -⟩ := sysMkdir_only hs.up h
    refine ⟨_, _, rfl, fun h => absurd rfl h, fun _ => ⟨h1, ?_⟩⟩
    intro p
    rw [h2, look_append]
    by_cases hpp : p = place cwd s
    · subst hpp; simp [h1]
    · simp [hpp]

/-- **C165 (deviation).**  If the folder to make it in is missing, the error is an unknown one, not that something does not exist. -/
theorem C165_mkdir_no_parent {cwd : Place} {s : List Byte} (hs : Plain s) (rest : List Byte) (mode : BitVec 32) {d : Disk} {c : Comp} (hl : (steps s).getLast? = some c) {q r : List Comp}
    (hq : steps s = q ++ r) (hr : r.length = 2) (hn : dot ∉ steps s) (hw : ∀ k < q.length, ∃ w, look d (origin cwd s ++ q.take k) = some (.folder true w))
    (h1 : ∃ w, look d (origin cwd s ++ q) = some (.folder true w)) (h2 : look d (origin cwd s ++ (steps s).dropLast) = none) : mkdir cwd (s ++ 0 :: rest) mode d = .ok (.unknown, d) := by
  have hu : dotdot ∉ steps s := fun e => hs.up (steps_sub e)
  have htidy : ∀ l : List Comp, dot ∉ l → tidy l = l := by
    intro l h
    unfold tidy
    rw [List.filter_eq_self]
    intro x hx
    simp only [decide_eq_true_eq]
    exact fun e => h (e ▸ hx)
  have hdl : (steps s).dropLast = q ++ r.dropLast := by
    rw [hq, List.dropLast_append_of_ne_nil (by intro e; rw [e] at hr; cases hr)]
  have hrl : r.dropLast.length = 1 := by rw [List.length_dropLast, hr]
  have hnd : dot ∉ (steps s).dropLast := fun e => hn (dropLast_sub e)
  have hwalk : walk d (origin cwd s) (steps s).dropLast = .ok (origin cwd s ++ (steps s).dropLast) := by
    have := walk_ok (d := d) (steps s).dropLast.dropLast (origin cwd s)
    have key : ∀ (cs : List Comp) (p : Place), dotdot ∉ cs → dot ∉ cs → (∀ c ∈ cs, c.length ≤ 255) → (∀ k < cs.length, ∃ w, look d (p ++ cs.take k) = some (.folder true w)) → walk d p cs = .ok (p ++ cs) := by
      intro cs
      induction cs with
      | nil => intro p _ _ _ _; simp [walk]
      | cons x cs ih =>
        intro p hu hd hl hf
        obtain ⟨w, hw⟩ := hf 0 (by simp)
        rw [List.take_zero, List.append_nil] at hw
        have hl1 : ¬ (x.length > 255) := by have := hl x (by simp); omega
        rw [walk, hw]
        dsimp only
        rw [if_neg (by decide), if_neg hl1, if_neg (fun e => hd (by simp [e])), if_neg (fun e => hu (by simp [e]))]
        rw [ih (p ++ [x]) (fun e => hu (by simp [e])) (fun e => hd (by simp [e])) (fun y hy => hl y (by simp [hy]))]
        · simp
        · intro k hk
          obtain ⟨w', hw'⟩ := hf (k + 1) (by simpa using hk)
          exact ⟨w', by simpa using hw'⟩
    apply key _ _ (fun e => hu (dropLast_sub e)) hnd (fun x hx => hs.names x (steps_sub (dropLast_sub hx)))
    intro k hk
    rw [hdl] at hk ⊢
    rw [List.length_append, hrl] at hk
    rw [List.take_append_of_le_length (by omega)]
    by_cases hk2 : k < q.length
    · exact hw k hk2
    · rw [show k = q.length by omega, List.take_length]
      exact h1
  have hp : parent d cwd s = .error .noent := by
    unfold parent
    rw [if_neg hs.some, if_neg (by have := hs.short; omega), hl]
    dsimp only
    rw [hwalk]
    dsimp only
    rw [h2]
  rw [mkdir_eq cwd hs.text]
  unfold sysMkdir
  rw [hp]
  rfl

/-- **C165.**  `zpl_path_rmdir` of a path whose folders can be reached: it is not there, or it is not empty, or may not be removed, or it is removed and nothing else changes. -/
theorem C165_rmdir {cwd : Place} {s : List Byte} (hs : Plain s) (rest : List Byte) {d : Disk} {q : List Comp} {c : Comp} (hq : clean s = q ++ [c]) (hl : (steps s).getLast? = some c)
    (hr : Reach d (origin cwd s) (clean s)) :
    (look d (place cwd s) = none → rmdir cwd (s ++ 0 :: rest) d = .ok (.notExists, d)) ∧
    (look d (place cwd s) ≠ none → look d (origin cwd s ++ q) = some (.folder true false) → rmdir cwd (s ++ 0 :: rest) d = .ok (.permission, d)) ∧
    (look d (origin cwd s ++ q) = some (.folder true true) → ∀ a b, look d (place cwd s) = some (.folder a b) →
      ((∃ x, look d (place cwd s ++ [x]) ≠ none) → rmdir cwd (s ++ 0 :: rest) d = .ok (.notEmpty, d)) ∧
      ((∀ x, look d (place cwd s ++ [x]) = none) → ∃ d', rmdir cwd (s ++ 0 :: rest) d = .ok (.none, d') ∧ ∀ p, look d' p = if p = place cwd s then none else look d p)) := by
  obtain ⟨w, hw, hp⟩ := parent_ok hs hq hl hr
  have hc : c ∈ clean s := by rw [hq]; simp
  unfold clean at hc
  have h1 := List.mem_filter.1 hc
  have hcd : c ≠ dot := by intro e; simp [e] at h1
  have hcu : c ≠ dotdot := fun e => hs.up (e ▸ h1.1)
  have he : origin cwd s ++ q ++ [c] = place cwd s := by rw [place, hq, List.append_assoc]
  have hm : sysRmdir cwd d s = match look d (place cwd s) with
      | none => .error .noent
      | some k =>
        if w = false then .error .acces
        else match k with
          | .file => .error .notdir
          | .folder _ _ => if occupied d (place cwd s) then .error .notempty else .ok (d.filter (fun e => decide (e.1 ≠ place cwd s))) := by
    unfold sysRmdir
    rw [hp]
    dsimp only
    rw [if_neg hcd, if_neg hcu, he]
  have hocc : occupied d (place cwd s) = true ↔ ∃ x, look d (place cwd s ++ [x]) ≠ none := by
    unfold occupied
    rw [List.any_eq_true]
    constructor
    · rintro ⟨e, hm, h⟩
      simp only [decide_eq_true_eq] at h
      obtain ⟨h0, h2⟩ := h
      refine ⟨e.1.getLast h0, ?_⟩
      rw [← h2, List.dropLast_concat_getLast h0]
      unfold look
      intro hn
      rw [Option.map_eq_none_iff, List.find?_eq_none] at hn
      exact hn e hm (by simp)
    · rintro ⟨x, hx⟩
      unfold look at hx
      cases hf : d.find? (fun e => decide (e.1 = place cwd s ++ [x])) with
      | none => rw [hf] at hx; exact absurd rfl hx
      | some e =>
        have := List.find?_some hf
        simp only [decide_eq_true_eq] at this
        exact ⟨e, List.mem_of_find?_eq_some hf, by simp [this]⟩
  rw [rmdir_eq cwd hs.text, hm]
  refine ⟨fun h => by rw [h]; rfl, fun h h2 => ?_, fun h2 a b h3 => ⟨fun h4 => ?_, fun h4 => ?_⟩⟩
  · rw [hw] at h2
    injection h2 with h2
    injection h2 with _ h2
    cases e : look d (place cwd s) with
    | none => exact absurd e h
    | some k => rw [h2]; rfl
  · rw [hw] at h2
    injection h2 with h2
    injection h2 with _ h2
    rw [h3, h2]
    dsimp only
    rw [if_neg (by decide), if_pos (hocc.2 h4)]
    rfl
  · rw [hw] at h2
    injection h2 with h2
    injection h2 with _ h2
    rw [h3, h2]
    dsimp only
    rw [if_neg (by decide), if_neg (fun h => by obtain ⟨x, hx⟩ := hocc.1 h; exact hx (h4 x))]
    exact ⟨_, rfl, fun p => look_filter d _ p⟩

/-- **C165.**  Making a folder and removing it leaves the disk as it was. -/
theorem C165_mkdir_rmdir {cwd : Place} {s : List Byte} (hs : Plain s) (rest : List Byte) (mode : BitVec 32) {d d' : Disk} (ht : Tree d) {q : List Comp} {c : Comp} (hq : clean s = q ++ [c])
    (hl : (steps s).getLast? = some c) (hr : Reach d (origin cwd s) (clean s)) (h : mkdir cwd (s ++ 0 :: rest) mode d = .ok (.none, d')) :
    ∃ d'', rmdir cwd (s ++ 0 :: rest) d' = .ok (.none, d'') ∧ ∀ p, look d'' p = look d p := by
  obtain ⟨r, d1, e, -, h2⟩ := C165_mkdir_only (cwd := cwd) hs rest mode d
  rw [h] at e
  simp only [Except.ok.injEq, Prod.mk.injEq] at e
  obtain ⟨rfl, rfl⟩ := e
  obtain ⟨h3, h4⟩ := h2 rfl
  have hne : ∀ k < (clean s).length, origin cwd s ++ (clean s).take k ≠ place cwd s := by
    intro k hk e
    unfold place at e
    have := congrArg List.length (List.append_cancel_left e)
    rw [List.length_take] at this
    omega
  have hr' : Reach d' (origin cwd s) (clean s) := by
    intro k hk
    rw [h4, if_neg (hne k hk)]
    exact hr k hk
  have hpar : look d (origin cwd s ++ q) = some (.folder true true) := by
    obtain ⟨w, hw⟩ := hr q.length (by rw [hq]; simp)
    rw [hq, List.take_left' rfl] at hw
    cases w with
    | true => exact hw
    | false =>
      have := (C165_mkdir hs rest mode hq hl hr).2.1 h3 hw
      rw [h] at this
      simp at this
  have hpne : origin cwd s ++ q ≠ place cwd s := by
    have := hne q.length (by rw [hq]; simp)
    rwa [hq, List.take_left' rfl] at this
  obtain ⟨d'', e1, e2⟩ := ((C165_rmdir hs rest hq hl hr').2.2 (by rw [h4, if_neg hpne]; exact hpar) _ _ (by rw [h4, if_pos rfl]; rfl)).2 (by
    intro x
    rw [h4, if_neg (by intro e; have := congrArg List.length e; simp at this)]
    cases e : look d (place cwd s ++ [x]) with
    | none => rfl
    | some k =>
      obtain ⟨a, b, hab⟩ := ht (place cwd s) x (by rw [e]; simp)
      rw [h3] at hab
      cases hab)
  refine ⟨d'', e1, ?_⟩
  intro p
  rw [e2, h4]
  by_cases hp : p = place cwd s
  · rw [if_pos hp, hp, h3]
  · rw [if_neg hp, if_neg hp]

/-! ## Making all folders on the way -/

/-- The disk after a call. -/
def after (cwd : Place) (new : Kind) (d : Disk) (t : List Byte) : Disk := match sysMkdir cwd new d t with | .ok d' => d' | .error _ => d

theorem makeAll_eq (cwd : Place) (mode : BitVec 32) : ∀ (ts : List (List Byte)) (d : Disk), (∀ t ∈ ts, Text t) → makeAll cwd mode ts d = .ok (ts.foldl (after cwd (made mode)) d)
  | [], d, _ => rfl
  | t :: ts, d, h => by
    rw [makeAll, mkdir_eq cwd (h t (by simp)), ok_bind, makeAll_eq cwd mode ts _ (fun x hx => h x (by simp [hx])), List.foldl_cons]
    congr 2
    unfold after
    cases sysMkdir cwd (made mode) d t <;> rfl

/-- The paths that come one after the other: what each means is what an earlier one means, or has one name more. -/
def Chain (ts : List (List Byte)) : Prop := ∀ n t, ts[n]? = some t → dotdot ∉ parts t ∧
  (clean t = [] ∨ (∃ t' ∈ ts.take n, clean t <+: clean t') ∨ (Plain t ∧ ∃ q c, clean t = q ++ [c] ∧ (steps t).getLast? = some c ∧ (q = [] ∨ ∃ t' ∈ ts.take n, q <+: clean t')))

/-- What is made on the way to one of the paths. -/
def Covers (start : Place) (ts : List (List Byte)) (p : Place) : Prop := start ≠ p ∧ start <+: p ∧ ∃ t ∈ ts, p <+: start ++ clean t

theorem prefix_take {α : Type} {a b : List α} (h : a <+: b) : a = b.take a.length := (List.prefix_iff_eq_take.1 h)

theorem fold_look {cwd start : Place} {new : Kind} {q : Place} {d : Disk} (hw : Way d start q new) {ts : List (List Byte)} (hc : Chain ts) (ho : ∀ t ∈ ts, origin cwd t = start) (hq : ∀ t ∈ ts, clean t <+: q) :
    ∀ n ≤ ts.length, ∀ p, (look d p = none → Covers start (ts.take n) p → look ((ts.take n).foldl (after cwd new) d) p = some new) ∧
      (¬ (look d p = none ∧ Covers start (ts.take n) p) → look ((ts.take n).foldl (after cwd new) d) p = look d p) := by
  intro n
  induction n with
  | zero =>
    intro _ p
    rw [List.take_zero]
    exact ⟨fun _ h => by obtain ⟨-, -, t, ht, -⟩ := h; simp at ht, fun _ => rfl⟩
  | succ n ih =>
    intro hn
    have ih := ih (by omega)
    obtain ⟨t, ht⟩ : ∃ t, ts[n]? = some t := ⟨_, List.getElem?_eq_getElem (by omega)⟩
    have htm : t ∈ ts := List.mem_of_getElem? ht
    have htake : ts.take (n + 1) = ts.take n ++ [t] := by rw [List.take_add_one, ht]; rfl
    rw [htake, List.foldl_append]
    generalize hd1 : (ts.take n).foldl (after cwd new) d = d1 at ih ⊢
    have hstart : look d start ≠ none := by
      rcases hw 0 (Nat.zero_le _) with ⟨-, h, -⟩ | ⟨s, w, h, -⟩
      · omega
      · rw [List.take_zero, List.append_nil] at h; rw [h]; simp
    have htq := hq t htm
    have hto := ho t htm
    have hpl : place cwd t = start ++ clean t := by rw [place, hto]
    -- what was covered before exists
    have hold : ∀ p, start <+: p → (∃ t' ∈ ts.take n, p <+: start ++ clean t') → look d1 p ≠ none := by
      intro p h1 h2
      by_cases hsp : start = p
      · subst hsp
        rw [(ih start).2 (fun h => hstart h.1)]
        exact hstart
      · by_cases hd : look d p = none
        · rw [(ih p).1 hd ⟨hsp, h1, h2⟩]; simp
        · rw [(ih p).2 (fun h => hd h.1)]; exact hd
    -- what the call does
    have hstep : ∀ p, (p = start ++ clean t → look d1 p = none → look (after cwd new d1 t) p = some new) ∧ (¬ (p = start ++ clean t ∧ look d1 p = none) → look (after cwd new d1 t) p = look d1 p) := by
      obtain ⟨hu, hcase⟩ := hc n t ht
      have only : ∀ p, ¬ (p = start ++ clean t ∧ look d1 p = none) → look (after cwd new d1 t) p = look d1 p := by
        intro p hp
        unfold after
        cases hm : sysMkdir cwd new d1 t with
        | error e => rfl
        | ok d2 =>
          obtain ⟨h1, h2, -⟩ := sysMkdir_only hu hm
          rw [h2]
          show look (d1 ++ [(place cwd t, new)]) p = _
          rw [look_append, hpl, if_neg (fun h => hp ⟨h.2, h.1⟩)]
      intro p
      refine ⟨?_, only p⟩
      intro hp hnone
      subst hp
      rcases hcase with h | ⟨t', ht', hpre⟩ | ⟨hplain, q', c, hqc, hlast, hq'⟩
      · exfalso
        rw [h, List.append_nil, (ih start).2 (fun h => hstart h.1)] at hnone
        exact hstart hnone
      · exfalso
        exact hold _ (List.prefix_append _ _) ⟨t', ht', (List.prefix_append_right_inj start).2 hpre⟩ hnone
      · have hlen : (clean t).length ≤ q.length := htq.length_le
        have hpre : ∀ k < (clean t).length, (clean t).take k = q.take k := by
          intro k hk
          rw [prefix_take htq, List.take_take, Nat.min_eq_left (by omega)]
        have hfold : ∀ k < (clean t).length, ∃ w, look d1 (start ++ (clean t).take k) = some (.folder true w) ∧ (k + 1 = (clean t).length → w = true) := by
          intro k hk
          have hkq : k < q.length := by omega
          have hk1 : q.take (k + 1) = clean t ∨ k + 1 < (clean t).length := by
            by_cases h : k + 1 < (clean t).length
            · exact Or.inr h
            · left
              have : k + 1 = (clean t).length := by omega
              rw [this]
              exact (prefix_take htq).symm
          rw [hpre k hk]
          have hcov : 0 < k → Covers start (ts.take n) (start ++ q.take k) := by
            intro hk0
            refine ⟨?_, List.prefix_append _ _, ?_⟩
            · intro e
              have := congrArg List.length e
              rw [List.length_append, List.length_take] at this
              omega
            · have hle : q.take k <+: q' := by
                rw [← hpre k hk, hqc, List.take_append_of_le_length (by rw [hqc] at hk; simp at hk; omega)]
                exact List.take_prefix _ _
              rcases hq' with h0 | ⟨t', ht', h'⟩
              · exfalso
                have := hle.length_le
                rw [h0, List.length_take, List.length_nil] at this
                omega
              · exact ⟨t', ht', (List.prefix_append_right_inj start).2 (hle.trans h')⟩
          rcases hw k (by omega) with ⟨h1, h2, h3⟩ | ⟨s, w, h1, h2⟩
          · refine ⟨true, ?_, fun _ => rfl⟩
            rw [(ih _).1 h1 (hcov h2), h3 hkq]
          · obtain ⟨rfl, h4⟩ := h2 hkq
            refine ⟨w, ?_, ?_⟩
            · rw [(ih _).2 (fun h => by rw [h1] at h; cases h.1), h1]
            · intro he
              apply h4
              have e2 : q.take (k + 1) = clean t := by
                rcases hk1 with h | h
                · exact h
                · omega
              rw [e2]
              by_cases hdn : look d (start ++ clean t) = none
              · exact hdn
              · exfalso
                rw [(ih _).2 (fun h => hdn h.1)] at hnone
                exact hdn hnone
        have hr : Reach d1 (origin cwd t) (clean t) := by
          intro k hk
          rw [hto]
          obtain ⟨w, h, -⟩ := hfold k hk
          exact ⟨w, h⟩
        obtain ⟨w, hwl, hpar⟩ := parent_ok hplain hqc hlast hr
        have hwt : w = true := by
          obtain ⟨w', h1, h2⟩ := hfold q'.length (by rw [hqc]; simp)
          have e : (clean t).take q'.length = q' := by rw [hqc, List.take_left' rfl]
          rw [e, ← hto, hwl] at h1
          injection h1 with h1
          injection h1 with _ h1
          rw [h1]
          exact h2 (by rw [hqc]; simp)
        have hcd : ¬ (c = dot ∨ c = dotdot) := by
          have hcm : c ∈ clean t := by rw [hqc]; simp
          unfold clean at hcm
          have h1 := List.mem_filter.1 hcm
          rintro (e | e)
          · simp [e] at h1
          · exact hu (e ▸ h1.1)
        have he : origin cwd t ++ q' ++ [c] = start ++ clean t := by rw [hto, hqc, List.append_assoc]
        unfold after sysMkdir
        rw [hpar]
        dsimp only
        rw [if_neg hcd, he, hnone]
        dsimp only
        rw [if_pos hwt]
        show look (d1 ++ [(start ++ clean t, new)]) _ = _
        rw [look_append, if_pos ⟨hnone, rfl⟩]
    intro p
    have hcovers : Covers start (ts.take n ++ [t]) p ↔ Covers start (ts.take n) p ∨ (start ≠ p ∧ start <+: p ∧ p <+: start ++ clean t) := by
      unfold Covers
      constructor
      · rintro ⟨h1, h2, t', ht', h3⟩
        rw [List.mem_append, List.mem_singleton] at ht'
        rcases ht' with ht' | rfl
        · exact Or.inl ⟨h1, h2, t', ht', h3⟩
        · exact Or.inr ⟨h1, h2, h3⟩
      · rintro (⟨h1, h2, t', ht', h3⟩ | ⟨h1, h2, h3⟩)
        · exact ⟨h1, h2, t', by simp [ht'], h3⟩
        · exact ⟨h1, h2, t, by simp, h3⟩
    rw [List.foldl_cons, List.foldl_nil, hcovers]
    -- a proper prefix of the new path was covered before
    have hprop : start ≠ p → start <+: p → p <+: start ++ clean t → p ≠ start ++ clean t → Covers start (ts.take n) p := by
      intro h1 h2 h3 h4
      refine ⟨h1, h2, ?_⟩
      obtain ⟨a, rfl⟩ := h2
      have ha : a <+: clean t := (List.prefix_append_right_inj start).1 h3
      have hane : a ≠ clean t := fun e => h4 (by rw [e])
      have ha0 : a ≠ [] := fun e => h1 (by rw [e, List.append_nil])
      obtain ⟨-, hcase⟩ := hc n t ht
      rcases hcase with h | ⟨t', ht', hpre⟩ | ⟨-, q', c, hqc, -, hq'⟩
      · rw [h] at ha
        exact absurd (List.prefix_nil.1 ha) ha0
      · exact ⟨t', ht', (List.prefix_append_right_inj start).2 (ha.trans hpre)⟩
      · have haq : a <+: q' := by
          rw [hqc] at ha hane
          rcases List.prefix_concat_iff.1 ha with h | h
          · exact absurd h hane
          · exact h
        rcases hq' with h0 | ⟨t', ht', h'⟩
        · rw [h0] at haq
          exact absurd (List.prefix_nil.1 haq) ha0
        · exact ⟨t', ht', (List.prefix_append_right_inj start).2 (haq.trans h')⟩
    constructor
    · rintro hd hcov
      by_cases hp : p = start ++ clean t
      · by_cases hd1n : look d1 p = none
        · exact (hstep p).1 hp hd1n
        · rw [(hstep p).2 (fun h => hd1n h.2)]
          by_cases hcv : Covers start (ts.take n) p
          · exact (ih p).1 hd hcv
          · exfalso
            rw [(ih p).2 (fun h => hcv h.2)] at hd1n
            exact hd1n hd
      · rw [(hstep p).2 (fun h => hp h.1)]
        rcases hcov with h | ⟨h1, h2, h3⟩
        · exact (ih p).1 hd h
        · exact (ih p).1 hd (hprop h1 h2 h3 hp)
    · intro hnot
      rw [(hstep p).2, (ih p).2 (fun h => hnot ⟨h.1, Or.inl h.2⟩)]
      rintro ⟨h1, h2⟩
      rw [(ih p).2 (fun h => hnot ⟨h.1, Or.inl h.2⟩)] at h2
      refine hnot ⟨h2, Or.inr ⟨?_, ?_, ?_⟩⟩
      · intro e
        exact hstart (e ▸ h2)
      · rw [h1]; exact List.prefix_append _ _
      · rw [h1]; exact List.prefix_refl _

/-! ### The paths asked for -/

/-- What `zpl_path_mkdir_recursive` asks for (C73). -/
def asked (s : List Byte) : List (List Byte) := ((List.range s.length).filter (fun i => decide (1 ≤ i ∧ s[i]? = some Path.sep))).map (fun i => s.take i) ++ [s]

theorem last_slash (t : List Byte) : slash ∉ t ∨ ∃ u c, t = u ++ slash :: c ∧ slash ∉ c := by
  induction t with
  | nil => exact Or.inl (by simp)
  | cons x t ih =>
    rcases ih with h | ⟨u, c, rfl, hc⟩
    · by_cases hx : x = slash
      · exact Or.inr ⟨[], t, by rw [hx]; rfl, h⟩
      · exact Or.inl (by simp only [List.mem_cons, not_or]; exact ⟨fun e => hx e.symm, h⟩)
    · exact Or.inr ⟨x :: u, c, rfl, hc⟩

/-- The lengths of the paths asked for. -/
def cuts (s : List Byte) : List Nat := (List.range s.length).filter (fun i => decide (1 ≤ i ∧ s[i]? = some Path.sep)) ++ [s.length]

theorem asked_eq (s : List Byte) : asked s = (cuts s).map (fun i => s.take i) := by
  unfold asked cuts
  rw [List.map_append, List.map_singleton, List.take_length]

theorem cuts_sorted (s : List Byte) : (cuts s).Pairwise (· < ·) := by
  unfold cuts
  rw [List.pairwise_append]
  refine ⟨List.Pairwise.filter _ List.pairwise_lt_range, by simp, ?_⟩
  intro a ha b hb
  rw [List.mem_singleton] at hb
  have := List.mem_range.1 (List.mem_filter.1 ha).1
  omega

theorem mem_cuts {s : List Byte} (hs : s ≠ []) {j : Nat} : j ∈ cuts s ↔ 1 ≤ j ∧ (j = s.length ∨ s[j]? = some slash) := by
  have hl : 0 < s.length := List.length_pos_iff.2 hs
  unfold cuts
  rw [List.mem_append, List.mem_filter, List.mem_range, List.mem_singleton]
  simp only [decide_eq_true_eq]
  have hsep : Path.sep = slash := rfl
  rw [hsep]
  constructor
  · rintro (⟨h1, h2, h3⟩ | h)
    · exact ⟨h2, Or.inr h3⟩
    · exact ⟨by omega, Or.inl h⟩
  · rintro ⟨h1, h | h⟩
    · exact Or.inr h
    · left
      refine ⟨?_, h1, h⟩
      rcases Nat.lt_or_ge j s.length with hlt | hge
      · exact hlt
      · rw [List.getElem?_eq_none hge] at h; cases h

theorem mem_take_sorted {l : List Nat} (h : l.Pairwise (· < ·)) {i j n : Nat} (hi : i ∈ l) (hj : l[n]? = some j) (hij : i < j) : i ∈ l.take n := by
  obtain ⟨m, hm⟩ := List.mem_iff_getElem?.1 hi
  obtain ⟨hm1, rfl⟩ := List.getElem?_eq_some_iff.1 hm
  obtain ⟨hn1, rfl⟩ := List.getElem?_eq_some_iff.1 hj
  have hmn : m < n := by
    rcases Nat.lt_or_ge m n with h' | h'
    · exact h'
    · exfalso
      rcases Nat.lt_or_ge n m with h2 | h2
      · have := List.pairwise_iff_getElem.1 h n m hn1 hm1 h2
        omega
      · have : m = n := by omega
        subst this
        omega
  rw [List.mem_take_iff_getElem]
  exact ⟨m, by omega, rfl⟩

theorem cut_parts {s : List Byte} {j : Nat} (h : j = s.length ∨ s[j]? = some slash) : s.take j = s ∨ ∃ rest, s = s.take j ++ slash :: rest := by
  rcases h with h | h
  · left; rw [h, List.take_length]
  · right
    obtain ⟨hj, e⟩ := List.getElem?_eq_some_iff.1 h
    refine ⟨s.drop (j + 1), ?_⟩
    conv => lhs; rw [← List.take_append_drop j s, List.drop_eq_getElem_cons hj, e]

theorem cut_facts {s : List Byte} (hs : Plain s) {j : Nat} (h1 : 1 ≤ j) (h : j = s.length ∨ s[j]? = some slash) (cwd : Place) :
    Plain (s.take j) ∧ clean (s.take j) <+: clean s ∧ origin cwd (s.take j) = origin cwd s := by
  have hl : 0 < s.length := List.length_pos_iff.2 hs.some
  have hsub : (∀ c ∈ parts (s.take j), c ∈ parts s) ∧ clean (s.take j) <+: clean s := by
    rcases cut_parts h with e | ⟨rest, e⟩
    · rw [e]; exact ⟨fun _ h => h, List.prefix_refl _⟩
    · have hp : parts s = parts (s.take j) ++ parts rest := by
        conv => lhs; rw [e]
        exact parts_append _ _
      refine ⟨fun c hc => by rw [hp]; simp [hc], ?_⟩
      unfold clean
      rw [hp, List.filter_append]
      exact List.prefix_append _ _
  refine ⟨⟨fun c hc => hs.text c (List.mem_of_mem_take hc), ?_, ?_, fun e => hs.up (hsub.1 _ e), fun c hc => hs.names c (hsub.1 c hc)⟩, hsub.2, ?_⟩
  · intro e
    have := congrArg List.length e
    rw [List.length_take, List.length_nil] at this
    omega
  · have := hs.short
    rw [List.length_take]
    omega
  · unfold origin
    rw [List.getElem?_take_of_lt (by omega)]

theorem asked_chain {s : List Byte} (hs : Plain s) : Chain (asked s) := by
  intro n t ht
  rw [asked_eq, List.getElem?_map, Option.map_eq_some_iff] at ht
  obtain ⟨j, hj, rfl⟩ := ht
  have hjm := (mem_cuts hs.some).1 (List.mem_of_getElem? hj)
  obtain ⟨hplain, -, -⟩ := cut_facts hs hjm.1 hjm.2 []
  refine ⟨hplain.up, ?_⟩
  rcases last_slash (s.take j) with h | ⟨u, c, hu, hc⟩
  · have hp := parts_one h
    by_cases hd : s.take j = dot
    · left
      unfold clean
      rw [hp, hd]
      decide
    · right; right
      refine ⟨hplain, [], s.take j, ?_, ?_, Or.inl rfl⟩
      · unfold clean
        rw [hp]
        simp [hplain.some, hd]
      · unfold steps
        rw [hp]
        simp [hplain.some]
  · have hp : parts (s.take j) = parts u ++ [c] := by rw [hu, parts_append, parts_one hc]
    have hclean : clean (s.take j) = clean u ++ clean c := by
      unfold clean
      rw [hp, parts_one hc, List.filter_append]
    have hlen : u.length < j := by
      have := congrArg List.length hu
      rw [List.length_take, List.length_append, List.length_cons] at this
      omega
    have hus : u = s.take u.length := by
      have : (s.take j).take u.length = u := by rw [hu, List.take_left' rfl]
      rw [List.take_take, Nat.min_eq_left (by omega)] at this
      exact this.symm
    have hsl : s[u.length]? = some slash := by
      have : (s.take j)[u.length]? = some slash := by rw [hu, List.getElem?_append_right (Nat.le_refl _)]; simp
      rw [List.getElem?_take_of_lt hlen] at this
      exact this
    have hearly : u = [] ∨ u ∈ (asked s).take n := by
      by_cases h0 : u = []
      · exact Or.inl h0
      · right
        have hi : u.length ∈ cuts s := (mem_cuts hs.some).2 ⟨List.length_pos_iff.2 h0, Or.inr hsl⟩
        have := mem_take_sorted (cuts_sorted s) hi hj hlen
        rw [asked_eq, ← List.map_take, List.mem_map]
        exact ⟨_, this, hus.symm⟩
    have hcu : u = [] → clean u = [] := by rintro rfl; decide
    by_cases hcc : c = [] ∨ c = dot
    · have hce : clean c = [] := by
        rcases hcc with e | e <;> subst e <;> decide
      rw [hclean, hce, List.append_nil]
      rcases hearly with h0 | h0
      · exact Or.inl (hcu h0)
      · exact Or.inr (Or.inl ⟨u, h0, List.prefix_refl _⟩)
    · rw [not_or] at hcc
      have hce : clean c = [c] := by
        unfold clean
        rw [parts_one hc]
        simp [hcc.1, hcc.2]
      right; right
      refine ⟨hplain, clean u, c, by rw [hclean, hce], ?_, ?_⟩
      · unfold steps
        rw [hp, List.filter_append]
        simp [hcc.1]
      · rcases hearly with h0 | h0
        · exact Or.inl (hcu h0)
        · exact Or.inr ⟨u, h0, List.prefix_refl _⟩

theorem recursive_eq {cwd : Place} {s : List Byte} (hs : Plain s) (rest : List Byte) {maxPath : Nat} (hm : s.length < maxPath) (mode : BitVec 32) (d : Disk) :
    Path.mkdirRecursive maxPath (s ++ 0 :: rest) = .ok (some (asked s)) ∧ mkdirRecursive maxPath cwd (s ++ 0 :: rest) mode d = .ok (0, (asked s).foldl (after cwd (made mode)) d) := by
  have hl : 0 < s.length := List.length_pos_iff.2 hs.some
  have h := Path.C73_mkdir_recursive hs.text rest maxPath (by omega)
  rw [if_pos hm] at h
  refine ⟨h, ?_⟩
  unfold mkdirRecursive
  rw [h, ok_bind]
  dsimp only
  rw [makeAll_eq cwd mode _ d, ok_bind]
  · rfl
  · intro t ht
    have ht' : t ∈ asked s := ht
    rw [asked_eq, List.mem_map] at ht'
    obtain ⟨j, -, rfl⟩ := ht'
    exact fun c hc => hs.text c (List.mem_of_mem_take hc)

theorem asked_facts {s : List Byte} (hs : Plain s) (cwd : Place) : ∀ t ∈ asked s, clean t <+: clean s ∧ origin cwd t = origin cwd s ∧ dotdot ∉ parts t := by
  intro t ht
  rw [asked_eq, List.mem_map] at ht
  obtain ⟨j, hj, rfl⟩ := ht
  have hjm := (mem_cuts hs.some).1 hj
  obtain ⟨h1, h2, h3⟩ := cut_facts hs hjm.1 hjm.2 cwd
  exact ⟨h2, h3, h1.up⟩

theorem fold_result {cwd : Place} {s : List Byte} (hs : Plain s) {new : Kind} {d : Disk} (hw : Way d (origin cwd s) (clean s) new) (p : Place) :
    look ((asked s).foldl (after cwd new) d) p = if look d p = none ∧ origin cwd s <+: p ∧ p <+: place cwd s then some new else look d p := by
  have h := fold_look hw (asked_chain hs) (fun t ht => (asked_facts hs cwd t ht).2.1) (fun t ht => (asked_facts hs cwd t ht).1) (asked s).length (Nat.le_refl _) p
  rw [List.take_length] at h
  by_cases hc : look d p = none ∧ origin cwd s <+: p ∧ p <+: place cwd s
  · rw [if_pos hc]
    refine h.1 hc.1 ⟨?_, hc.2.1, s, by unfold asked; simp, hc.2.2⟩
    intro e
    rcases hw 0 (Nat.zero_le _) with ⟨-, h, -⟩ | ⟨a, b, h, -⟩
    · omega
    · rw [List.take_zero, List.append_nil, e, hc.1] at h
      cases h
  · rw [if_neg hc]
    apply h.2
    rintro ⟨h1, -, h2, t, ht, h3⟩
    exact hc ⟨h1, h2, h3.trans ((List.prefix_append_right_inj _).2 (asked_facts hs cwd t ht).1)⟩

/-! ## Properties of the recursive call -/

/-- **C165.**  A path that does not fit is refused: the result says so and nothing is made. -/
theorem C165_recursive_long {s : List Byte} (hs : Text s) (rest : List Byte) {maxPath : Nat} (h2 : 2 ≤ maxPath) (hm : maxPath ≤ s.length) (cwd : Place) (mode : BitVec 32) (d : Disk) :
    mkdirRecursive maxPath cwd (s ++ 0 :: rest) mode d = .ok (-1, d) := by
  unfold mkdirRecursive
  rw [Path.C73_mkdir_recursive hs rest maxPath h2, if_neg (by omega), ok_bind]

/-- **C165 (partial).**  If nothing is in the way, `zpl_path_mkdir_recursive` makes the folder and all the missing ones on the way to it, and nothing else changes.

`_partial`: for paths without `..`; and that nothing is in the way is not what the result says (`C165_recursive_silent`). -/
theorem C165_recursive_partial {cwd : Place} {s : List Byte} (hs : Plain s) (rest : List Byte) {maxPath : Nat} (hm : s.length < maxPath) (mode : BitVec 32) {d : Disk}
    (hw : Way d (origin cwd s) (clean s) (made mode)) : ∃ d', mkdirRecursive maxPath cwd (s ++ 0 :: rest) mode d = .ok (0, d') ∧ (∃ a b, look d' (place cwd s) = some (.folder a b)) ∧
      ∀ p, look d' p = if look d p = none ∧ origin cwd s <+: p ∧ p <+: place cwd s then some (made mode) else look d p := by
  refine ⟨_, (recursive_eq hs rest hm mode d).2, ?_, fold_result hs hw⟩
  rw [fold_result hs hw]
  rcases hw (clean s).length (Nat.le_refl _) with ⟨h, -, -⟩ | ⟨a, b, h, -⟩
  · rw [List.take_length] at h
    rw [if_pos ⟨h, List.prefix_append _ _, List.prefix_refl _⟩]
    exact ⟨_, _, rfl⟩
  · rw [List.take_length] at h
    refine ⟨a, b, ?_⟩
    rw [if_neg]
    · exact h
    · rintro ⟨h', -⟩
      have h2 : look d (origin cwd s ++ clean s) = none := h'
      rw [h] at h2
      cases h2

/-- **C165.**  If the program stops after any number of the folders, calling it again comes to the same. -/
theorem C165_recursive_resumed {cwd : Place} {s : List Byte} (hs : Plain s) (rest : List Byte) {maxPath : Nat} (hm : s.length < maxPath) (mode : BitVec 32) {d d1 : Disk}
    (hw : Way d (origin cwd s) (clean s) (made mode)) {calls : List (List Byte)} (hc : Path.mkdirRecursive maxPath (s ++ 0 :: rest) = .ok (some calls)) (n : Nat)
    (h1 : makeAll cwd mode (calls.take n) d = .ok d1) : ∃ d', mkdirRecursive maxPath cwd (s ++ 0 :: rest) mode d1 = .ok (0, d') ∧
      ∀ p, look d' p = if look d p = none ∧ origin cwd s <+: p ∧ p <+: place cwd s then some (made mode) else look d p := by
  rw [(recursive_eq (cwd := cwd) hs rest hm mode d).1] at hc
  simp only [Except.ok.injEq, Option.some.injEq] at hc
  subst hc
  rw [makeAll_eq cwd mode _ d (by
    intro t ht
    have ht' := List.mem_of_mem_take ht
    rw [asked_eq, List.mem_map] at ht'
    obtain ⟨j, -, rfl⟩ := ht'
    exact fun c hc => hs.text c (List.mem_of_mem_take hc)), Except.ok.injEq] at h1
  have hn : (asked s).take n = (asked s).take (min n (asked s).length) := by rw [← List.take_take, List.take_length]
  have hlook := fold_look hw (asked_chain hs) (fun t ht => (asked_facts hs cwd t ht).2.1) (fun t ht => (asked_facts hs cwd t ht).1) (min n (asked s).length) (Nat.min_le_right _ _)
  rw [← hn, h1] at hlook
  have hsome : ∀ p x, look d p = some x → look d1 p = some x := by
    intro p x h
    rw [(hlook p).2 (fun h' => by rw [h] at h'; cases h'.1), h]
  have hnone : ∀ p, look d p = none → look d1 p = none ∨ look d1 p = some (made mode) := by
    intro p h
    by_cases hcv : Covers (origin cwd s) ((asked s).take n) p
    · exact Or.inr ((hlook p).1 h hcv)
    · left; rw [(hlook p).2 (fun h' => hcv h'.2), h]
  have hw1 : Way d1 (origin cwd s) (clean s) (made mode) := by
    intro k hk
    rcases hw k hk with ⟨h2, h3, h4⟩ | ⟨a, b, h2, h3⟩
    · rcases hnone _ h2 with h5 | h5
      · exact Or.inl ⟨h5, h3, h4⟩
      · refine Or.inr ⟨mode.getLsbD 6, mode.getLsbD 7, h5, ?_⟩
        intro hk2
        have := h4 hk2
        unfold made at this
        injection this with e1 e2
        exact ⟨e1, fun _ => e2⟩
    · refine Or.inr ⟨a, b, hsome _ _ h2, ?_⟩
      intro hk2
      refine ⟨(h3 hk2).1, fun h5 => (h3 hk2).2 ?_⟩
      cases h6 : look d (origin cwd s ++ (clean s).take (k + 1)) with
      | none => rfl
      | some x => rw [hsome _ _ h6] at h5; cases h5
  refine ⟨_, (recursive_eq hs rest hm mode d1).2, ?_⟩
  intro p
  rw [fold_result hs hw1]
  by_cases hd : look d p = none
  · by_cases hpre : origin cwd s <+: p ∧ p <+: place cwd s
    · rcases hnone p hd with h | h
      · rw [if_pos ⟨h, hpre⟩, if_pos ⟨hd, hpre⟩]
      · rw [if_neg (fun h' => by rw [h] at h'; cases h'.1), if_pos ⟨hd, hpre⟩, h]
    · rw [if_neg (fun h => hpre h.2), if_neg (fun h => hpre h.2), (hlook p).2]
      rintro ⟨-, -, h2, t, ht, h3⟩
      exact hpre ⟨h2, h3.trans ((List.prefix_append_right_inj _).2 (asked_facts hs cwd t (List.mem_of_mem_take ht)).1)⟩
  · cases h : look d p with
    | none => exact absurd h hd
    | some x => simp [hsome p x h]

theorem after_tree {cwd : Place} {a b : Bool} {d : Disk} {t : List Byte} (hu : dotdot ∉ parts t) (h : Tree d) : Tree (after cwd (.folder a b) d t) ∧ ∀ p x, look d p = some x → look (after cwd (.folder a b) d t) p = some x := by
  unfold after
  cases hm : sysMkdir cwd (.folder a b) d t with
  | error e => exact ⟨h, fun _ _ h => h⟩
  | ok d' =>
    obtain ⟨h1, h2, p0, c0, w, h3, h4, -⟩ := sysMkdir_only hu hm
    have hkeep : ∀ p x, look d p = some x → look d' p = some x := by
      intro p x hx
      rw [h2, look_append, if_neg (fun h => by rw [hx] at h; cases h.1), hx]
    refine ⟨?_, hkeep⟩
    intro p c hne
    show ∃ s w, look d' p = _
    have hne' : look d' (p ++ [c]) ≠ none := hne
    by_cases hp : look d (p ++ [c]) = none
    · rw [h2, look_append, hp] at hne'
      by_cases e : p ++ [c] = place cwd t
      · rw [h3] at e
        obtain ⟨rfl, -⟩ := List.append_inj' e rfl
        exact ⟨true, w, hkeep _ _ h4⟩
      · simp [e] at hne'
    · obtain ⟨s, w', h5⟩ := h p c hp
      exact ⟨s, w', hkeep _ _ h5⟩

/-- **C165 (deviation).**  If a file is in the way, the folder is not made, and the result is that of success. -/
theorem C165_recursive_silent {cwd : Place} {s : List Byte} (hs : Plain s) (rest : List Byte) {maxPath : Nat} (hm : s.length < maxPath) (mode : BitVec 32) {d : Disk} (ht : Tree d) {k : Nat}
    (hf : look d (origin cwd s ++ (clean s).take k) = some .file) :
    ∃ d', mkdirRecursive maxPath cwd (s ++ 0 :: rest) mode d = .ok (0, d') ∧ ∀ a b, look d' (place cwd s) ≠ some (.folder a b) := by
  refine ⟨_, (recursive_eq hs rest hm mode d).2, ?_⟩
  have key : ∀ (ts : List (List Byte)) (d : Disk), (∀ t ∈ ts, dotdot ∉ parts t) → Tree d → look d (origin cwd s ++ (clean s).take k) = some .file →
      Tree (ts.foldl (after cwd (made mode)) d) ∧ look (ts.foldl (after cwd (made mode)) d) (origin cwd s ++ (clean s).take k) = some .file := by
    intro ts
    induction ts with
    | nil => intro d _ h1 h2; exact ⟨h1, h2⟩
    | cons t ts ih =>
      intro d hu h1 h2
      obtain ⟨h3, h4⟩ := after_tree (cwd := cwd) (a := mode.getLsbD 6) (b := mode.getLsbD 7) (hu t (by simp)) h1
      exact ih _ (fun x hx => hu x (by simp [hx])) h3 (h4 _ _ h2)
  obtain ⟨h1, h2⟩ := key (asked s) d (fun t h => (asked_facts hs cwd t h).2.2) ht hf
  generalize (asked s).foldl (after cwd (made mode)) d = d' at h1 h2
  have below : ∀ (l : List Comp) (p : Place), look d' p = some .file → l ≠ [] → look d' (p ++ l) = none := by
    intro l
    induction l with
    | nil => intro p _ h; exact absurd rfl h
    | cons c l ih =>
      intro p hp _
      have hc : look d' (p ++ [c]) = none := by
        cases h : look d' (p ++ [c]) with
        | none => rfl
        | some x =>
          obtain ⟨a, b, hab⟩ := h1 p c (by rw [h]; simp)
          rw [hp] at hab
          cases hab
      by_cases hl : l = []
      · rw [hl]; exact hc
      · have none_below : ∀ (l : List Comp) (q : Place), look d' q = none → look d' (q ++ l) = none := by
          intro l
          induction l with
          | nil => intro q h; rwa [List.append_nil]
          | cons y l ih =>
            intro q h
            rw [show q ++ y :: l = (q ++ [y]) ++ l by simp]
            apply ih
            cases h' : look d' (q ++ [y]) with
            | none => rfl
            | some x =>
              obtain ⟨a, b, hab⟩ := h1 q y (by rw [h']; simp)
              rw [h] at hab
              cases hab
        rw [show p ++ c :: l = (p ++ [c]) ++ l by simp]
        exact none_below l _ hc
  intro a b hab
  have e : place cwd s = (origin cwd s ++ (clean s).take k) ++ (clean s).drop k := by rw [List.append_assoc, List.take_append_drop]; rfl
  rw [e] at hab
  by_cases hd : (clean s).drop k = []
  · rw [hd, List.append_nil, h2] at hab
    cases hab
  · rw [below _ _ h2 hd] at hab
    cases hab

/-! ## Examples -/

/-- `home`, which is the user's, in a root that is not, and a file in it. -/
def exDisk : Disk := [([], .folder true false), ([[0x68#8]], .folder true true), ([[0x68#8], [0x66#8]], .file)]

/-- `a/./b` -/
def exPath : List Byte := [0x61#8, 0x2f#8, 0x2e#8, 0x2f#8, 0x62#8]

theorem exPlain : Plain exPath := ⟨by unfold Text; decide, by decide, by decide, by decide, by decide⟩

theorem exWay : Way exDisk (origin [[0x68#8]] exPath) (clean exPath) (made 0o755#32) := by
  have hc : clean exPath = [[0x61#8], [0x62#8]] := by decide
  rw [hc]
  intro k hk
  have : k = 0 ∨ k = 1 ∨ k = 2 := by simp at hk; omega
  rcases this with rfl | rfl | rfl
  · exact Or.inr ⟨true, true, by decide, fun _ => ⟨rfl, fun _ => rfl⟩⟩
  · exact Or.inl ⟨by decide, by decide, fun _ => by decide⟩
  · exact Or.inl ⟨by decide, by decide, fun h => absurd h (by decide)⟩

/-- `C165_recursive_long` for a path of four characters and room for four bytes. -/
example (d : Disk) : mkdirRecursive 4 [] ([0x61#8, 0x2f#8, 0x62#8, 0x63#8] ++ 0 :: []) 0o755#32 d = .ok (-1, d) :=
  C165_recursive_long (by simp [Text]) [] (by decide) (by decide) [] _ d

example : ∃ d', mkdirRecursive 4096 [[0x68#8]] (exPath ++ 0 :: []) 0o755#32 exDisk = .ok (0, d') ∧ look d' [[0x68#8], [0x61#8], [0x62#8]] = some (.folder true true) := by
  obtain ⟨d', h1, -, h2⟩ := C165_recursive_partial exPlain [] (maxPath := 4096) (by decide) 0o755#32 exWay
  refine ⟨d', h1, ?_⟩
  rw [h2]
  decide

/-- `f/x`, where `f` is a file. -/
example : ∃ d', mkdirRecursive 4096 [[0x68#8]] ([0x66#8, 0x2f#8, 0x78#8] ++ 0 :: []) 0o755#32 exDisk = .ok (0, d') ∧ ∀ a b, look d' [[0x68#8], [0x66#8], [0x78#8]] ≠ some (.folder a b) := by
  refine C165_recursive_silent (s := [0x66#8, 0x2f#8, 0x78#8]) ⟨by unfold Text; decide, by decide, by decide, by decide, by decide⟩ [] (by decide) _ ?_ (k := 1) (by decide)
  intro p c h
  unfold look exDisk at h
  simp only [List.find?_cons, List.find?_nil] at h
  by_cases h1 : ([] : Place) = p ++ [c]
  · simp at h1
  · by_cases h2 : [[0x68#8]] = p ++ [c]
    · have : p = [] := by cases p with
        | nil => rfl
        | cons x p => simp at h2
      subst this
      exact ⟨true, false, by decide⟩
    · by_cases h3 : [[0x68#8], [0x66#8]] = p ++ [c]
      · have : p = [[0x68#8]] := by
          have := congrArg List.dropLast h3
          simpa using this.symm
        subst this
        exact ⟨true, true, by decide⟩
      · simp [h1, h2, h3] at h

end Zpl.MkDir
