import Verif.Str.CStr

/-!
# Splitting a text into lines in place (code/header/core/string.h:435-453)  -  C32

## Model

The text is a block of bytes; `p` and `pd` are offsets in it.  The growth of the resulting array is assumed to succeed (the array itself
is C01/C02). -/

namespace Zpl.Str

/-- string.h:442 `if (*(pd - 1) == '\r') *(pd - 1) = 0;` -/
def dropCr (buf : List Byte) (pd : Nat) : Except Fault (List Byte) :=
  if pd = 0 then .error .oob
  else do
    let c ← rd buf (pd - 1)
    if c = 13#8 then wr buf (pd - 1) 0 else .ok buf

/-- string.h:439-451, the loop of `zpl_str_split_lines`. -/
def splitLoop (strip : Bool) : Nat → List Byte → Nat → Nat → List Nat → Except Fault (List Nat × List Byte)
  | 0, _, _, _, _ => .error .diverge
  | fuel + 1, buf, p, pd, lines => do
    let c ← rd buf p
    if c = 0 then .ok (lines, buf)
    else do
      let d ← rd buf pd
      if d = 10#8 then do
        let buf ← wr buf pd 0
        let buf ← dropCr buf pd
        if strip = true ∧ pd - p = 0 then splitLoop strip fuel buf (pd + 1) pd lines
        else splitLoop strip fuel buf (pd + 1) (pd + 1) (lines ++ [p])
      else splitLoop strip fuel buf p (pd + 1) lines

/-- string.h:435-453 `zpl_str_split_lines`: the line pointers as offsets, and the block afterwards.  The fuel is enough for any block: `diverge` never
comes out (`C32_split_lines_partial`). -/
def splitLines (strip : Bool) (buf : List Byte) : Except Fault (List Nat × List Byte) :=
  splitLoop strip (2 * buf.length + 2) buf 0 0 []

/-! ## Specification -/

/-- The C string at an offset of a block. -/
def cstringAt (buf : List Byte) (p : Nat) : List Byte := (buf.drop p).takeWhile (· ≠ 0)

/-- A line: no newline and no NUL in it. -/
def Line (l : List Byte) : Prop := ∀ c ∈ l, c ≠ 0 ∧ c ≠ 10#8

/-- The text whose lines are `ls`, each ended by a newline. -/
def unlines (ls : List (List Byte)) : List Byte := ls.flatMap (· ++ [10#8])

/-- A line without the carriage return at its end. -/
def chomp (l : List Byte) : List Byte := if l.getLast? = some 13#8 then l.dropLast else l

/-! ## Lemmas -/

def mark (l : List Byte) : List Byte := if l.getLast? = some 13#8 then l.dropLast ++ [0, 0] else l ++ [0]

def starts (strip : Bool) : Nat → List (List Byte) → List Nat
  | _, [] => []
  | off, l :: ls => (if strip = true ∧ l = [] then [] else [off]) ++ starts strip (off + l.length + 1) ls

theorem mark_length (l : List Byte) : (mark l).length = l.length + 1 := by
  unfold mark
  split
  · rename_i h
    have : l ≠ [] := by intro e; subst e; simp at h
    have := List.length_pos_iff.2 this
    simp; omega
  · simp

theorem mark_last (l : List Byte) : (mark l).getLast? = some 0 := by
  unfold mark; split <;> simp [List.getLast?_append]

theorem rd_at (A B : List Byte) (x : Byte) : rd (A ++ x :: B) A.length = .ok x := by simp [rd]

theorem scan_line (strip : Bool) (A l B : List Byte) (hl : Line l) (lines : List Nat) (m : Nat) :
    ∀ (k f : Nat), k ≤ l.length → m = l.length - k → l ≠ [] →
      splitLoop strip (f + m) (A ++ l ++ B) A.length (A.length + k) lines = splitLoop strip f (A ++ l ++ B) A.length (A.length + l.length) lines := by
  induction m with
  | zero =>
    intro k f hk hm _
    have : k = l.length := by omega
    subst this; rfl
  | succ m ih =>
    intro k f hk hm hne
    have hkl : k < l.length := by omega
    obtain ⟨x, t, rfl⟩ : ∃ x t, l = x :: t := by cases l with | nil => simp at hne | cons x t => exact ⟨x, t, rfl⟩
    have hx := hl x (by simp)
    have hk' := hl _ (List.getElem_mem hkl)
    rw [show f + (m + 1) = (f + m) + 1 from by omega]
    have r1 : rd (A ++ x :: t ++ B) A.length = .ok x := by simp [rd]
    have r2 : rd (A ++ x :: t ++ B) (A.length + k) = .ok (x :: t)[k] := by
      unfold rd
      rw [List.append_assoc, List.getElem?_append_right (by omega), Nat.add_sub_cancel_left, List.getElem?_append_left hkl, List.getElem?_eq_getElem hkl]
    rw [splitLoop, r1, except_ok_bind, if_neg hx.1, r2, except_ok_bind, if_neg hk'.2]
    exact ih (k + 1) f (by omega) (by omega) (by simp)

theorem set_mid (A B : List Byte) (x y : Byte) : (A ++ x :: B).set A.length y = A ++ y :: B := by
  rw [List.set_append_right _ _ (by omega), Nat.sub_self, List.set_cons_zero]

theorem end_line (strip : Bool) (A l B : List Byte) (hl : Line l) (hA : A.getLast? = some 0 ∨ l ≠ []) (lines : List Nat) (f : Nat) :
    splitLoop strip (f + 1) (A ++ l ++ 10#8 :: B) A.length (A.length + l.length) lines =
      if strip = true ∧ l = [] then
        splitLoop strip f (A ++ mark l ++ B) (A.length + l.length + 1) (A.length + l.length) lines
      else splitLoop strip f (A ++ mark l ++ B) (A.length + l.length + 1) (A.length + l.length + 1) (lines ++ [A.length]) := by
  have r1 : ∃ x, rd (A ++ l ++ 10#8 :: B) A.length = .ok x ∧ x ≠ 0 := by
    cases l with
    | nil => exact ⟨10#8, by simp [rd], by decide⟩
    | cons x t => exact ⟨x, by simp [rd], (hl x (by simp)).1⟩
  obtain ⟨x, r1, hx⟩ := r1
  have hlen : (A ++ l).length = A.length + l.length := by simp
  have r2 : rd (A ++ l ++ 10#8 :: B) (A.length + l.length) = .ok 10#8 := by rw [← hlen]; exact rd_at _ _ _
  have w : wr (A ++ l ++ 10#8 :: B) (A.length + l.length) 0 = .ok (A ++ l ++ 0 :: B) := by
    rw [wr_ok (by simp), ← hlen, set_mid]
  have hpos : A.length + l.length ≠ 0 := by
    rcases hA with h | h
    · have : A ≠ [] := by intro e; subst e; simp at h
      have := List.length_pos_iff.2 this; omega
    · have := List.length_pos_iff.2 h; omega
  have dc : dropCr (A ++ l ++ 0 :: B) (A.length + l.length) = .ok (A ++ mark l ++ B) := by
    unfold dropCr
    rw [if_neg hpos]
    by_cases hl0 : l = []
    · subst hl0
      rcases hA with h | h
      · obtain ⟨A', rfl⟩ : ∃ A', A = A' ++ [0] := by
          rcases List.eq_nil_or_concat A with rfl | ⟨A', y, rfl⟩
          · simp at h
          · simp [List.getLast?_append] at h; exact ⟨A', by simp [h]⟩
        have : rd (A' ++ [0] ++ [] ++ 0 :: B) ((A' ++ [0]).length + ([] : List Byte).length - 1) = .ok 0 := by
          simp [rd]
        rw [this, except_ok_bind, if_neg (by decide)]
        simp [mark]
      · exact absurd rfl h
    · rcases List.eq_nil_or_concat l with rfl | ⟨t, y, rfl⟩
      · exact absurd rfl hl0
      · have e : A ++ (t ++ [y]) ++ 0 :: B = (A ++ t) ++ y :: (0 :: B) := by simp
        have i : A.length + (t ++ [y]).length - 1 = (A ++ t).length := by simp
        rw [List.concat_eq_append, e, i, rd_at, except_ok_bind]
        by_cases hy : y = 13#8
        · rw [if_pos hy, wr_ok (by simp), set_mid]
          simp [mark, hy]
        · rw [if_neg hy]
          simp [mark, hy]
  rw [splitLoop, r1, except_ok_bind, if_neg hx, r2, except_ok_bind, if_pos rfl, w, except_ok_bind, dc, except_ok_bind]
  have : (A.length + l.length - A.length = 0) ↔ l = [] := by
    rw [Nat.add_sub_cancel_left]; exact List.length_eq_zero_iff
  simp only [this]

theorem split_stop (strip : Bool) (A rest : List Byte) (pd f : Nat) (lines : List Nat) :
    splitLoop strip (f + 1) (A ++ 0 :: rest) A.length pd lines = .ok (lines, A ++ 0 :: rest) := by
  rw [splitLoop, rd_at, except_ok_bind, if_pos rfl]

/-- One step from the state after an empty line has been dropped. -/
theorem split_catch_up (strip : Bool) (A B : List Byte) (x : Byte) (hx : x ≠ 0) (hA : A.getLast? = some 0) (f : Nat) (lines : List Nat) :
    splitLoop strip (f + 1) (A ++ x :: B) A.length (A.length - 1) lines = splitLoop strip f (A ++ x :: B) A.length A.length lines := by
  obtain ⟨A', rfl⟩ : ∃ A', A = A' ++ [0] := by
    rcases List.eq_nil_or_concat A with rfl | ⟨A', y, rfl⟩
    · simp at hA
    · simp [List.getLast?_append] at hA; exact ⟨A', by simp [hA]⟩
  have r : rd (A' ++ [0] ++ x :: B) ((A' ++ [0]).length - 1) = .ok 0 := by simp [rd]
  rw [splitLoop, rd_at, except_ok_bind, if_neg hx, r, except_ok_bind, if_neg (by decide)]
  congr 1
  simp

theorem unlines_cons (l : List Byte) (ls : List (List Byte)) : unlines (l :: ls) = l ++ 10#8 :: unlines ls := by simp [unlines]

/-- The state of the loop after the lines `ls`, from a line start: `C` is the part of the block from the end of these lines on. -/
theorem split_lines_run (strip : Bool) (C : List Byte) (ls : List (List Byte)) :
    ∀ (A : List Byte) (lines : List Nat) (g : Nat), (∀ l ∈ ls, Line l) → (A.getLast? = some 0 ∨ ls.head? ≠ some []) →
      ∀ (pd : Nat), (pd = A.length ∨ (pd = A.length - 1 ∧ A.getLast? = some 0)) →
      ∃ g' pd', g ≤ g' ∧
        splitLoop strip (g + 2 * (unlines ls).length) (A ++ unlines ls ++ C) A.length pd lines =
          splitLoop strip g' (A ++ ls.flatMap mark ++ C) (A ++ ls.flatMap mark).length pd' (lines ++ starts strip A.length ls) ∧
        (pd' = (A ++ ls.flatMap mark).length ∨
          (pd' = (A ++ ls.flatMap mark).length - 1 ∧ (A ++ ls.flatMap mark).getLast? = some 0)) := by
  induction ls with
  | nil =>
    intro A lines g _ _ pd hpd
    exact ⟨g, pd, Nat.le_refl _, by simp [unlines, starts], by simpa using hpd⟩
  | cons l ls ih =>
    intro A lines g hls hA pd hpd
    have hl := hls l (by simp)
    have hA1 : A.getLast? = some 0 ∨ l ≠ [] := by
      rcases hA with h | h
      · exact .inl h
      · right; intro e; subst e; simp at h
    have key : ∀ g1, ∃ g2, g1 ≤ g2 ∧
        splitLoop strip (g1 + 2 * l.length + 1) (A ++ l ++ 10#8 :: (unlines ls ++ C)) A.length A.length lines =
          splitLoop strip (g2 + 1) (A ++ l ++ 10#8 :: (unlines ls ++ C)) A.length (A.length + l.length) lines := by
      intro g1
      by_cases hne : l = []
      · subst hne
        exact ⟨g1, Nat.le_refl _, by simp⟩
      · have := scan_line strip A l (10#8 :: (unlines ls ++ C)) hl lines l.length 0 (g1 + l.length + 1) (by omega) (by omega) hne
        refine ⟨g1 + l.length, by omega, ?_⟩
        rw [← this, Nat.add_zero]
        congr 1; omega
    have start : ∀ g1, ∃ g2, g1 ≤ g2 ∧
        splitLoop strip (g1 + 2 * l.length + 2) (A ++ l ++ 10#8 :: (unlines ls ++ C)) A.length pd lines =
          splitLoop strip (g2 + 1) (A ++ l ++ 10#8 :: (unlines ls ++ C)) A.length (A.length + l.length) lines := by
      intro g1
      rcases hpd with rfl | ⟨rfl, h0⟩
      · obtain ⟨g2, h, e⟩ := key (g1 + 1)
        exact ⟨g2, by omega, by rw [← e]; congr 1; omega⟩
      · obtain ⟨g2, h, e⟩ := key g1
        refine ⟨g2, h, ?_⟩
        rw [← e]
        obtain ⟨x, t, e2, hx⟩ : ∃ x t, l ++ 10#8 :: (unlines ls ++ C) = x :: t ∧ x ≠ 0 := by
          cases l with
          | nil => exact ⟨10#8, _, rfl, by decide⟩
          | cons x t => exact ⟨x, _, rfl, (hl x (by simp)).1⟩
        rw [List.append_assoc, e2]
        exact split_catch_up strip A t x hx h0 _ lines
    have hlen2 : g + 2 * (unlines (l :: ls)).length = (g + 2 * (unlines ls).length) + 2 * l.length + 2 := by
      rw [unlines_cons]; simp; omega
    have hblk : A ++ unlines (l :: ls) ++ C = A ++ l ++ 10#8 :: (unlines ls ++ C) := by rw [unlines_cons]; simp
    obtain ⟨g2, hg2, e2⟩ := start (g + 2 * (unlines ls).length)
    have hAm : (A ++ mark l).getLast? = some 0 := by rw [List.getLast?_append, mark_last]; rfl
    have hAl : (A ++ mark l).length = A.length + l.length + 1 := by rw [List.length_append, mark_length]; omega
    rw [hlen2, hblk, e2, end_line strip A l _ hl hA1]
    have fin : ∀ (pd1 : Nat) (lines1 : List Nat), (pd1 = (A ++ mark l).length ∨ (pd1 = (A ++ mark l).length - 1 ∧ (A ++ mark l).getLast? = some 0)) →
        lines1 ++ starts strip (A.length + l.length + 1) ls = lines ++ starts strip A.length (l :: ls) →
        ∃ g' pd', g ≤ g' ∧
          splitLoop strip g2 (A ++ mark l ++ (unlines ls ++ C)) (A.length + l.length + 1) pd1 lines1 =
            splitLoop strip g' (A ++ (l :: ls).flatMap mark ++ C) (A ++ (l :: ls).flatMap mark).length pd'
              (lines ++ starts strip A.length (l :: ls)) ∧
          (pd' = (A ++ (l :: ls).flatMap mark).length ∨
            (pd' = (A ++ (l :: ls).flatMap mark).length - 1 ∧ (A ++ (l :: ls).flatMap mark).getLast? = some 0)) := by
      intro pd1 lines1 hp1 hl1
      obtain ⟨g', pd', h1, h2, h3⟩ := ih (A ++ mark l) lines1 (g2 - 2 * (unlines ls).length) (fun l' h => hls l' (by simp [h])) (.inl hAm) pd1 hp1
      have hg : g2 - 2 * (unlines ls).length + 2 * (unlines ls).length = g2 := by omega
      have eb : A ++ mark l ++ ls.flatMap mark = A ++ (l :: ls).flatMap mark := by simp
      rw [hg, hAl, eb, hl1] at h2
      rw [eb] at h3
      refine ⟨g', pd', by omega, ?_, h3⟩
      rw [← h2, List.append_assoc (A ++ mark l)]
    by_cases hs : strip = true ∧ l = []
    · rw [if_pos hs]
      exact fin _ _ (.inr ⟨by rw [hAl]; rfl, hAm⟩) (by simp [starts, hs])
    · rw [if_neg hs]
      exact fin _ _ (.inl hAl.symm) (by simp [starts, hs])

theorem takeWhile_text {s : List Byte} (hs : Text s) (rest : List Byte) : (s ++ 0 :: rest).takeWhile (· ≠ 0) = s := by
  induction s with
  | nil => simp
  | cons c s ih =>
    have := Text.cons.1 hs
    rw [List.cons_append, List.takeWhile_cons_of_pos (by simpa using this.1), ih this.2]

theorem mark_chomp (l : List Byte) : ∃ t, mark l = chomp l ++ 0 :: t := by
  unfold mark chomp
  split
  · exact ⟨[0], rfl⟩
  · exact ⟨[], rfl⟩

theorem chomp_text {l : List Byte} (hl : Line l) : Text (chomp l) := by
  unfold chomp
  intro c hc
  split at hc
  · exact (hl c (List.dropLast_subset l hc)).1
  · exact (hl c hc).1

theorem starts_strings (strip : Bool) (C : List Byte) (ls : List (List Byte)) :
    ∀ (A : List Byte), (∀ l ∈ ls, Line l) → (starts strip A.length ls).map (cstringAt (A ++ ls.flatMap mark ++ C)) =
      ((if strip then ls.filter (· ≠ []) else ls).map chomp) := by
  induction ls with
  | nil => intro A _; simp [starts]
  | cons l ls ih =>
    intro A hls
    have := ih (A ++ mark l) (fun l' h => hls l' (by simp [h]))
    have hAl : (A ++ mark l).length = A.length + l.length + 1 := by rw [List.length_append, mark_length]; omega
    rw [hAl] at this
    have eb : A ++ mark l ++ ls.flatMap mark = A ++ (l :: ls).flatMap mark := by simp
    rw [eb] at this
    have hd : cstringAt (A ++ (l :: ls).flatMap mark ++ C) A.length = chomp l := by
      obtain ⟨t, ht⟩ := mark_chomp l
      unfold cstringAt
      rw [List.append_assoc, List.drop_left, List.flatMap_cons, ht, List.append_assoc, List.append_assoc]
      exact takeWhile_text (chomp_text (hls l (by simp))) _
    rw [starts, List.map_append, this]
    cases strip
    · simp only [Bool.false_eq_true, false_and, if_false, List.map_cons, List.map_nil, List.singleton_append, hd]
    · by_cases h : l = []
      · simp [h]
      · rw [if_neg (fun h' => h h'.2), if_pos rfl, if_pos rfl, List.filter_cons_of_pos (by simpa using h)]
        simp only [List.map_cons, List.map_nil, List.singleton_append, hd]

/-! ## Properties -/

/-- **C32, partial.** For every text made of lines each ended by a newline, and not beginning with a newline: the strings returned are the lines
(without a carriage return at their end; without the empty lines if `strip` is set), in order, and all accesses stay within the text and its
terminator (`rest` is arbitrary, and unchanged).  Missing: texts beginning with a newline or with an unterminated last line; the code leaves
the block then (`C32_leading_newline`, `C32_unterminated_line`). -/
theorem C32_split_lines_partial (strip : Bool) (ls : List (List Byte)) (rest : List Byte) (hls : ∀ l ∈ ls, Line l) (h0 : ls.head? ≠ some []) :
    ∃ ptrs block, splitLines strip (unlines ls ++ 0 :: rest) = .ok (ptrs, block) ∧
      ptrs.map (cstringAt block) = (if strip then ls.filter (· ≠ []) else ls).map chomp ∧
      block.length = (unlines ls ++ 0 :: rest).length ∧ block.drop (unlines ls).length = 0 :: rest := by
  obtain ⟨g', pd', hg, e, -⟩ := split_lines_run strip (0 :: rest) ls [] [] (2 * (rest.length + 1) + 2) hls (.inr h0) 0 (.inl rfl)
  have hfl : (ls.flatMap mark).length = (unlines ls).length := by
    unfold unlines
    rw [List.length_flatMap, List.length_flatMap]
    congr 1
    apply List.map_congr_left
    intro l _
    rw [mark_length]; simp
  refine ⟨starts strip 0 ls, ls.flatMap mark ++ 0 :: rest, ?_, ?_, ?_, ?_⟩
  · simp only [List.nil_append, List.length_nil] at e
    unfold splitLines
    have : 2 * (unlines ls ++ 0 :: rest).length + 2 = 2 * (rest.length + 1) + 2 + 2 * (unlines ls).length := by simp; omega
    rw [this, e]
    obtain ⟨g, rfl⟩ : ∃ g, g' = g + 1 := ⟨g' - 1, by omega⟩
    exact split_stop _ _ _ _ _ _
  · have := starts_strings strip (0 :: rest) ls [] hls
    simpa using this
  · simp [hfl]
  · rw [← hfl, List.drop_left]

/-- **C32, joining.** If no line ends in a carriage return, putting a newline behind each of the strings returned gives back the text. -/
theorem C32_join_partial (ls : List (List Byte)) (rest : List Byte) (hls : ∀ l ∈ ls, Line l ∧ l.getLast? ≠ some 13#8) (h0 : ls.head? ≠ some []) :
    ∃ ptrs block, splitLines false (unlines ls ++ 0 :: rest) = .ok (ptrs, block) ∧ unlines (ptrs.map (cstringAt block)) = unlines ls := by
  obtain ⟨ptrs, block, e, h, -⟩ := C32_split_lines_partial false ls rest (fun l hl => (hls l hl).1) h0
  refine ⟨ptrs, block, e, ?_⟩
  rw [h]
  congr 1
  simp only [Bool.false_eq_true, if_false]
  conv => rhs; rw [← List.map_id ls]
  apply List.map_congr_left
  intro l hl
  simp [chomp, (hls l hl).2]

/-- Deviation: on a text beginning with a newline the code looks at the byte before the text. -/
theorem C32_leading_newline (strip : Bool) (t : List Byte) : splitLines strip (10#8 :: t) = .error .oob := by
  have : 2 * (10#8 :: t).length + 2 = (2 * t.length + 3) + 1 := by simp; omega
  unfold splitLines
  rw [this, splitLoop]
  simp [rd, wr, dropCr]

/-- Deviation: when the last line has no newline the code runs past the terminator of the text; here that is the end of the block. -/
theorem C32_unterminated_line (strip : Bool) (ls : List (List Byte)) (l : List Byte) (hls : ∀ l ∈ ls, Line l) (h0 : ls.head? ≠ some [])
    (hl : Line l) (hne : l ≠ []) : splitLines strip (unlines ls ++ l ++ [0]) = .error .oob := by
  obtain ⟨g', pd', hg, e, hpd⟩ := split_lines_run strip (l ++ [0]) ls [] [] (2 * (l.length + 1) + 2) hls (.inr h0) 0 (.inl rfl)
  simp only [List.nil_append, List.length_nil] at e hpd
  have hfl : (unlines ls ++ (l ++ [0])).length = (unlines ls).length + l.length + 1 := by simp; omega
  unfold splitLines
  rw [List.append_assoc]
  have : 2 * (unlines ls ++ (l ++ [0])).length + 2 = 2 * (l.length + 1) + 2 + 2 * (unlines ls).length := by rw [hfl]; omega
  rw [this, e]
  generalize starts strip 0 ls = lines
  -- from a line start
  have run : ∀ (A : List Byte) (g : Nat), l.length + 2 ≤ g → splitLoop strip g (A ++ (l ++ [0])) A.length A.length lines = .error .oob := by
    intro A g hg
    have := scan_line strip A l [0] hl lines l.length 0 (g - l.length) (by omega) (by omega) hne
    rw [List.append_assoc, Nat.add_zero] at this
    rw [show g = g - l.length + l.length from by omega, this]
    obtain ⟨x, t, rfl⟩ : ∃ x t, l = x :: t := by cases l with | nil => simp at hne | cons x t => exact ⟨x, t, rfl⟩
    have hx := hl x (by simp)
    have r1 : rd (A ++ (x :: t ++ [0])) A.length = .ok x := by simp [rd]
    obtain ⟨g1, hg1⟩ : ∃ g1, g - (x :: t).length = g1 + 2 := ⟨g - (x :: t).length - 2, by omega⟩
    rw [hg1]
    have r2 : rd (A ++ (x :: t ++ [0])) (A.length + (x :: t).length) = .ok 0 := by
      have := rd_at (A ++ x :: t) [] 0
      simpa using this
    have r3 : rd (A ++ (x :: t ++ [0])) (A.length + (x :: t).length + 1) = .error .oob := by
      apply Sort.rd_oob; simp; omega
    rw [splitLoop, r1, except_ok_bind, if_neg hx.1, r2, except_ok_bind, if_neg (by decide)]
    rw [splitLoop, r1, except_ok_bind, if_neg hx.1, r3, except_error_bind]
  rcases hpd with rfl | ⟨rfl, hz⟩
  · exact run _ _ (by omega)
  · obtain ⟨x, t, e2, hx⟩ : ∃ x t, l ++ [0] = x :: t ∧ x ≠ 0 := by
      cases l with
      | nil => exact absurd rfl hne
      | cons x t => exact ⟨x, _, rfl, (hl x (by simp)).1⟩
    obtain ⟨g, rfl⟩ : ∃ g, g' = g + 1 := ⟨g' - 1, by omega⟩
    rw [e2, split_catch_up strip _ t x hx hz, ← e2]
    exact run _ _ (by omega)

/-! ## The hypotheses are met -/

/-- "a\r\n\nb\n" -/
example : (∀ l ∈ [[97#8, 13#8], [], [98#8]], Line l) ∧ ([[97#8, 13#8], [], [98#8]] : List (List Byte)).head? ≠ some [] ∧
    splitLines false [97#8, 13#8, 10#8, 10#8, 98#8, 10#8, 0#8] = .ok ([0, 3, 4], [97#8, 0#8, 0#8, 0#8, 98#8, 0#8, 0#8]) ∧
    splitLines true [97#8, 13#8, 10#8, 10#8, 98#8, 10#8, 0#8] = .ok ([0, 4], [97#8, 0#8, 0#8, 0#8, 98#8, 0#8, 0#8]) := by
  refine ⟨by unfold Line; decide, by decide, by decide, by decide⟩

end Zpl.Str
