import Verif.Str.Copy

/-!
# Paths (code/header/core/file_misc.h:104-141, code/source/core/file_misc.c:232-251, 467-478)  -  C65, C73

## Model

The POSIX branches.  There `ZPL_PATH_SEPARATOR` is `'/'` (file_misc.h:10) and `zpl_path_fix_slashes` does nothing (file_misc.c:467-478).  Paths are C
strings as in `CStr`; a returned pointer is its distance from the argument. -/

namespace Zpl.Path

open Str

/-- `'/'` -/
abbrev sep : Byte := 0x2f#8

/-- file_misc.h:104-113 `zpl_path_is_absolute`. -/
def isAbsolute (path : List Byte) : Except Fault Bool := do
  let n ← strlen path
  if n > 0 then do
    let c ← rd path 0
    .ok (c == sep)
  else .ok false

/-- file_misc.h:115 `zpl_path_is_relative`. -/
def isRelative (path : List Byte) : Except Fault Bool := do .ok (!(← isAbsolute path))

/-- file_misc.h:117-126 `zpl_path_is_root`. -/
def isRoot (path : List Byte) : Except Fault Bool := do
  if ← isAbsolute path then do
    let n ← strlen path
    .ok (n == 1)
  else .ok false

/-- file_misc.h:128-134 `zpl_path_base_name`. -/
def baseName (path : List Byte) : Except Fault Nat := do
  match ← lastOcc sep path with
  | none => .ok 0
  | some ls => .ok (ls + 1)

/-- file_misc.h:136-141 `zpl_path_extension`; `none` is NULL. -/
def extension (path : List Byte) : Except Fault (Option Nat) := do
  match ← lastOcc 0x2e#8 path with
  | none => .ok none
  | some ld => .ok (some (ld + 1))

/-- The C string at `tmp`, which is what `zpl_path_mkdir` passes to `mkdir(2)`. -/
def textAt (tmp : List Byte) : Except Fault (List Byte) := do
  let n ← strlen tmp
  .ok (tmp.take n)

/-- file_misc.c:242-248, from index `p` on; `calls` are the arguments of `zpl_path_mkdir` so far.  The fuel bounds the number of rounds. -/
def mkdirLoop : Nat → List Byte → Nat → List (List Byte) → Except Fault (List Byte × List (List Byte))
  | 0, _, _, _ => .error .diverge
  | fuel + 1, tmp, p, calls => do
    let c ← rd tmp p
    if c ≠ 0 then
      if c = sep then do
        let tmp ← wr tmp p 0
        let arg ← textAt tmp
        let tmp ← wr tmp p sep
        mkdirLoop fuel tmp (p + 1) (calls ++ [arg])
      else mkdirLoop fuel tmp (p + 1) calls
    else .ok (tmp, calls)

/-- file_misc.c:232-251 `zpl_path_mkdir_recursive` with `ZPL_MAX_PATH` = `maxPath`: the directories it asks the system to make, in order; `none` is the
result -1.  The results of the system calls are not looked at. -/
def mkdirRecursive (maxPath : Nat) (path : List Byte) : Except Fault (Option (List (List Byte))) := do
  let len ← strlen path
  if len > maxPath - 1 then .ok none
  else do
    let tmp ← Copy.strcpy (List.replicate maxPath 0) path
    let (tmp, calls) ← mkdirLoop (maxPath + 1) tmp 1 []
    let arg ← textAt tmp
    .ok (some (calls ++ [arg]))

/-! ## Lemmas -/

theorem lastOcc_cases {s : List Byte} (hs : Text s) (rest : List Byte) {c : Byte} (hc : c ≠ 0) :
    (c ∉ s ∧ lastOcc c (s ++ 0 :: rest) = .ok none) ∨
    (∃ a b, s = a ++ c :: b ∧ c ∉ b ∧ lastOcc c (s ++ 0 :: rest) = .ok (some a.length)) := by
  obtain ⟨r, e, h1, h2⟩ := lastOccLoop_ok hs rest c 0 none
  have hm : c ∈ s ++ [0] ↔ c ∈ s := by
    rw [List.mem_append, List.mem_singleton]
    exact ⟨fun h => h.elim id (fun h => absurd h hc), .inl⟩
  by_cases h : c ∈ s
  · right
    obtain ⟨i, hr, hi, hj⟩ := h2 (hm.2 h)
    have hil : i < s.length := by
      rcases Nat.lt_or_ge i s.length with h | h
      · exact h
      · rw [List.getElem?_append_right h] at hi
        have : i - s.length = 0 := by
          rcases Nat.eq_zero_or_pos (i - s.length) with h | h
          · exact h
          · rw [List.getElem?_eq_none (by simp; omega)] at hi; cases hi
        rw [this] at hi
        injection hi with hi
        exact absurd hi.symm hc
    rw [List.getElem?_append_left hil, List.getElem?_eq_getElem hil] at hi
    injection hi with hi
    refine ⟨s.take i, s.drop (i + 1), ?_, ?_, ?_⟩
    · conv => lhs; rw [← List.take_append_drop i s, List.drop_eq_getElem_cons hil, hi]
    · intro hb
      obtain ⟨k, hk⟩ := List.mem_iff_getElem?.1 hb
      rw [List.getElem?_drop] at hk
      refine hj (i + 1 + k) (by omega) ?_
      have hlt : i + 1 + k < s.length := by
        rcases Nat.lt_or_ge (i + 1 + k) s.length with h | h
        · exact h
        · rw [List.getElem?_eq_none h] at hk; cases hk
      rw [List.getElem?_append_left hlt]; exact hk
    · rw [lastOcc, e, hr]; simp; omega
  · exact .inl ⟨h, by rw [lastOcc, e, h1 (fun h' => h (hm.1 h'))]⟩

theorem isAbsolute_ok {s : List Byte} (hs : Text s) (rest : List Byte) :
    ∃ b, isAbsolute (s ++ 0 :: rest) = .ok b ∧ (b = true ↔ s[0]? = some sep) := by
  cases s with
  | nil => exact ⟨false, by simp [isAbsolute, strlen], by simp⟩
  | cons c s =>
    refine ⟨c == sep, ?_, by simp⟩
    rw [isAbsolute, strlen_ok hs, except_ok_bind, if_pos (by simp)]
    rfl

theorem textAt_ok {s : List Byte} (hs : Text s) (rest : List Byte) : textAt (s ++ 0 :: rest) = .ok s := by
  rw [textAt, strlen_ok hs, except_ok_bind, List.take_left' rfl]

/-- The directories named by a separator at an index from `p` on. -/
def prefixesFrom (s : List Byte) (p n : Nat) : List (List Byte) :=
  ((List.range' p n).filter (fun i => decide (s[i]? = some sep))).map (fun i => s.take i)

theorem mkdirLoop_ok {s : List Byte} (hs : Text s) (pad : List Byte) (n p fuel : Nat) (hp : p + n = s.length) (hf : n < fuel) (calls : List (List Byte)) :
    mkdirLoop fuel (s ++ 0 :: pad) p calls = .ok (s ++ 0 :: pad, calls ++ prefixesFrom s p n) := by
  induction n generalizing p fuel calls with
  | zero =>
    obtain ⟨f, rfl⟩ : ∃ f, fuel = f + 1 := ⟨fuel - 1, by omega⟩
    have r1 : rd (s ++ 0 :: pad) p = .ok 0 := by
      rw [rd, List.getElem?_append_right (by omega)]
      have : p - s.length = 0 := by omega
      rw [this]; rfl
    rw [mkdirLoop, r1, except_ok_bind, if_neg (by simp)]
    simp [prefixesFrom]
  | succ n ih =>
    obtain ⟨f, rfl⟩ : ∃ f, fuel = f + 1 := ⟨fuel - 1, by omega⟩
    have hlt : p < s.length := by omega
    have r1 : rd (s ++ 0 :: pad) p = .ok s[p] := by
      rw [rd, List.getElem?_append_left hlt, List.getElem?_eq_getElem hlt]
    have hne : s[p] ≠ 0 := hs _ (List.getElem_mem _)
    have hget : s[p]? = some s[p] := List.getElem?_eq_getElem hlt
    have hpre : prefixesFrom s p (n + 1) = (if s[p] = sep then [s.take p] else []) ++ prefixesFrom s (p + 1) n := by
      unfold prefixesFrom
      rw [List.range'_succ, List.filter_cons, hget]
      by_cases hc : s[p] = sep
      · simp [hc]
      · simp [hc]
    rw [mkdirLoop, r1, except_ok_bind, if_pos hne, hpre]
    by_cases hc : s[p] = sep
    · have w1 : wr (s ++ 0 :: pad) p 0 = .ok (s.take p ++ 0 :: (s.drop (p + 1) ++ 0 :: pad)) := by
        rw [wr_ok (by simp; omega), List.set_append_left _ _ hlt, List.set_eq_take_append_cons_drop, if_pos hlt]
        simp
      have htp : Text (s.take p) := fun c hc => hs c (List.mem_of_mem_take hc)
      have w2 : wr (s.take p ++ 0 :: (s.drop (p + 1) ++ 0 :: pad)) p sep = .ok (s ++ 0 :: pad) := by
        have hl : (s.take p).length = p := by simp; omega
        rw [wr_ok (by simp; omega), List.set_append_right _ _ (by omega), hl, Nat.sub_self, List.set_cons_zero]
        congr 1
        conv => rhs; rw [← List.take_append_drop p s, List.drop_eq_getElem_cons hlt, hc]
        simp
      rw [if_pos hc, if_pos hc, w1, except_ok_bind, textAt_ok htp, except_ok_bind, w2, except_ok_bind, ih (p + 1) f (by omega) (by omega)]
      simp
    · rw [if_neg hc, if_neg hc, ih (p + 1) f (by omega) (by omega)]
      simp

/-! ## Properties -/

/-- **C65, kinds of paths.** Absolute: it begins with `'/'`; relative: it does not; root: it is `"/"`. -/
theorem C65_kind {s : List Byte} (hs : Text s) (rest : List Byte) :
    ∃ a r t, isAbsolute (s ++ 0 :: rest) = .ok a ∧ isRelative (s ++ 0 :: rest) = .ok r ∧ isRoot (s ++ 0 :: rest) = .ok t ∧
      (a = true ↔ ∃ s', s = sep :: s') ∧ (r = true ↔ ¬ ∃ s', s = sep :: s') ∧ (t = true ↔ s = [sep]) := by
  obtain ⟨a, e, h⟩ := isAbsolute_ok hs rest
  have h' : a = true ↔ ∃ s', s = sep :: s' := by
    rw [h]
    cases s with
    | nil => simp
    | cons c s => simp
  refine ⟨a, !a, a && (s.length == 1), e, ?_, ?_, h', ?_, ?_⟩
  · rw [isRelative, e, except_ok_bind]
  · rw [isRoot, e, except_ok_bind]
    cases a
    · rfl
    · rw [if_pos rfl, strlen_ok hs, except_ok_bind]; rfl
  · rw [← h']; simp
  · rw [Bool.and_eq_true, h']
    constructor
    · rintro ⟨⟨s', rfl⟩, hl⟩
      obtain rfl : s' = [] := by simpa using hl
      rfl
    · rintro rfl
      exact ⟨⟨[], rfl⟩, rfl⟩

/-- **C65, `zpl_path_base_name`.** The result points at the part after the last `'/'`, or at the whole path if there is none. -/
theorem C65_base_name {s : List Byte} (hs : Text s) (rest : List Byte) :
    ∃ dir base, s = dir ++ base ∧ sep ∉ base ∧ (dir = [] ∨ ∃ d, dir = d ++ [sep]) ∧ baseName (s ++ 0 :: rest) = .ok dir.length := by
  rcases lastOcc_cases hs rest (c := sep) (by decide) with ⟨hn, e⟩ | ⟨a, b, rfl, hb, e⟩
  · exact ⟨[], s, rfl, hn, .inl rfl, by rw [baseName, e]; rfl⟩
  · refine ⟨a ++ [sep], b, by simp, hb, .inr ⟨a, rfl⟩, ?_⟩
    rw [baseName, e]
    simp

/-- **C65, `zpl_path_extension`.** NULL if the path has no dot, otherwise a pointer at the part after the last dot. -/
theorem C65_extension {s : List Byte} (hs : Text s) (rest : List Byte) :
    ((0x2e#8 : Byte) ∉ s ∧ extension (s ++ 0 :: rest) = .ok none) ∨
    (∃ stem ext, s = stem ++ 0x2e#8 :: ext ∧ (0x2e#8 : Byte) ∉ ext ∧ extension (s ++ 0 :: rest) = .ok (some (stem.length + 1))) := by
  rcases lastOcc_cases hs rest (c := 0x2e#8) (by decide) with ⟨hn, e⟩ | ⟨a, b, rfl, hb, e⟩
  · exact .inl ⟨hn, by rw [extension, e]; rfl⟩
  · exact .inr ⟨a, b, rfl, hb, by rw [extension, e]; rfl⟩

/-- **C73.** A path that fits in `ZPL_MAX_PATH` bytes with its terminator makes `zpl_path_mkdir_recursive` ask for every directory on the way, outermost first
(the part before each `'/'` other than a leading one), and then for the path itself; a longer one is refused before anything is made.  It reads and
writes only the path and its own buffer. -/
theorem C73_mkdir_recursive {s : List Byte} (hs : Text s) (rest : List Byte) (maxPath : Nat) (hm : 2 ≤ maxPath) :
    mkdirRecursive maxPath (s ++ 0 :: rest) =
      if s.length < maxPath then
        .ok (some (((List.range s.length).filter (fun i => decide (1 ≤ i ∧ s[i]? = some sep))).map (fun i => s.take i) ++ [s]))
      else .ok none := by
  rw [mkdirRecursive, strlen_ok hs, except_ok_bind]
  by_cases h : s.length < maxPath
  · rw [if_neg (by omega), if_pos h]
    have hcp : Copy.strcpy (List.replicate maxPath 0) (s ++ 0 :: rest) = .ok (s ++ 0 :: List.replicate (maxPath - s.length - 1) 0) := by
      rw [Copy.strcpy, Copy.copyText_ok hs rest _ (by simp; omega), List.drop_replicate]
      obtain ⟨k, hk⟩ : ∃ k, maxPath - s.length = k + 1 := ⟨maxPath - s.length - 1, by omega⟩
      rw [hk, List.replicate_succ, Nat.add_sub_cancel]
    rw [hcp, except_ok_bind]
    cases s with
    | nil =>
      obtain ⟨k, hk⟩ : ∃ k, maxPath - 0 - 1 = k + 1 := ⟨maxPath - 2, by omega⟩
      have : mkdirLoop (maxPath + 1) ([] ++ 0 :: List.replicate (maxPath - ([] : List Byte).length - 1) 0) 1 [] =
          .ok ([] ++ 0 :: List.replicate (maxPath - ([] : List Byte).length - 1) 0, []) := by
        simp only [List.length_nil, hk, List.replicate_succ, List.nil_append]
        rw [mkdirLoop]
        simp [rd]
      rw [this, except_ok_bind]
      dsimp only
      rw [textAt_ok hs, except_ok_bind]
      simp
    | cons c s =>
      rw [mkdirLoop_ok hs _ s.length 1 (maxPath + 1) (by simp; omega) (by simp at h; omega), except_ok_bind]
      dsimp only
      rw [textAt_ok hs, except_ok_bind, List.nil_append, prefixesFrom]
      congr 3
      rw [List.length_cons, List.range_eq_range', List.range'_succ, List.filter_cons, if_neg (by simp), Nat.zero_add]
      congr 1
      apply List.filter_congr
      intro i hi
      rw [List.mem_range'_1] at hi
      simp [hi.1]
  · rw [if_pos (by omega), if_neg h]

/-! ## The hypotheses are met -/

/-- "/a/b.c" -/
example : Text [47#8, 97#8, 47#8, 98#8, 46#8, 99#8] ∧ isAbsolute [47#8, 97#8, 47#8, 98#8, 46#8, 99#8, 0#8] = .ok true ∧
    isRoot [47#8, 0#8] = .ok true ∧ baseName [47#8, 97#8, 47#8, 98#8, 46#8, 99#8, 0#8] = .ok 3 ∧
    extension [47#8, 97#8, 47#8, 98#8, 46#8, 99#8, 0#8] = .ok (some 5) ∧
    mkdirRecursive 16 [47#8, 97#8, 47#8, 98#8, 46#8, 99#8, 0#8] = .ok (some [[47#8, 97#8], [47#8, 97#8, 47#8, 98#8, 46#8, 99#8]]) := by
  refine ⟨by unfold Text; decide, by decide, by decide, by decide, by decide, by decide⟩

end Zpl.Path
