import Verif.Parse.RegexBad

/-!
# The number of groups in a regular expression (code/source/regex.c)

`zpl_re_capture_count` after `zpl_re_compile`: how many captures a caller has to make room for.  The model is that of `Verif.Parse.Regex`.  Property C173.
-/

namespace Zpl.Regex

open Zpl.Str

/-- regex.c:713 `zpl_re_capture_count` -/
def captureCount (re : Re) : Nat := re.captures

/-! ## Specification -/

/-- How many characters behind a backslash belong to it: a hexadecimal digit takes the next character with it, if there is one; anything else stands alone. -/
def escLength : List Byte → Nat
  | e :: _ :: _ => if range 48 57 e || range 65 70 e || range 97 102 e then 2 else 1
  | _ => 1

/-- The number of characters up to the bracket that closes a set, with it; the first `k` belong to an escape.  `none`: it is not closed. -/
def setRest : Nat → List Byte → Option Nat
  | _, [] => none
  | k + 1, _ :: t => (setRest k t).map (· + 1)
  | 0, c :: t => if c = 0x5d#8 then some 1 else (setRest (if c = 0x5c#8 then escLength t else 0) t).map (· + 1)

/-- The number of characters of a set behind its opening bracket, with the closing one; a `^` may come first. -/
def setLength : List Byte → Option Nat
  | [] => none
  | c :: t => if c = 0x5e#8 then (setRest 0 t).map (· + 1) else setRest 0 (c :: t)

/-- How many groups are opened in a text of which the first `k` characters belong to an escape or a set.  A `[` that is not closed is passed over. -/
def opensFrom : Nat → List Byte → Nat
  | _, [] => 0
  | k + 1, _ :: t => opensFrom k t
  | 0, c :: t =>
    if c = 0x5c#8 then opensFrom (escLength t) t
    else if c = 0x5b#8 then opensFrom ((setLength t).getD 0) t
    else (if c = 0x28#8 then 1 else 0) + opensFrom 0 t

/-- How many groups are opened in a text: its opening brackets that belong neither to an escape nor to a set. -/
def opens (s : List Byte) : Nat := opensFrom 0 s

/-- Sets have at most 256 characters between their brackets. -/
def ShortSets (s : List Byte) : Prop := ∀ (k : Nat) (t : List Byte) (m : Nat), s.drop k = 0x5b#8 :: t → setLength t = some m → m ≤ 257

/-! ## The compiler and its counter -/

theorem opens_other {c : Byte} (h : c ≠ 0x28#8) (h' : c ≠ 0x5c#8) (h'' : c ≠ 0x5b#8) (s : List Byte) : opens (c :: s) = opens s := by
  simp [opens, opensFrom, h, h', h'']

theorem opens_open (s : List Byte) : opens (0x28#8 :: s) = opens s + 1 := by
  simp [opens, opensFrom, Nat.add_comm]

theorem opensFrom_drop : ∀ (k : Nat) (s : List Byte), opensFrom k s = opens (s.drop k)
  | 0, s => rfl
  | k + 1, [] => by simp [opens, opensFrom]
  | k + 1, c :: t => by rw [opensFrom, List.drop_succ_cons, opensFrom_drop k t]

theorem opens_escape (s : List Byte) : opens (0x5c#8 :: s) = opens (s.drop (escLength s)) := by
  rw [← opensFrom_drop]
  simp [opens, opensFrom]

theorem opens_set (s : List Byte) : opens (0x5b#8 :: s) = opens (s.drop ((setLength s).getD 0)) := by
  rw [← opensFrom_drop]
  simp [opens, opensFrom]

theorem setRest_drop : ∀ (k : Nat) (s : List Byte), setRest k s = (setRest 0 (s.drop k)).map (· + k)
  | 0, s => by simp
  | k + 1, [] => by simp [setRest]
  | k + 1, c :: t => by
    rw [setRest, List.drop_succ_cons, setRest_drop k t, Option.map_map]
    rfl

theorem setRest_pos {s : List Byte} {m : Nat} (h : setRest 0 s = some m) : 1 ≤ m := by
  cases s with
  | nil => simp [setRest] at h
  | cons c t =>
    rw [setRest] at h
    split at h
    · cases h; omega
    · obtain ⟨a, -, rfl⟩ := Option.map_eq_some_iff.mp h
      omega

/-- Without sets and escapes every opening bracket counts. -/
theorem opens_plain : ∀ {s : List Byte}, Plain s → opens s = s.count 0x28#8
  | [], _ => rfl
  | c :: t, h => by
    have ih := opens_plain (s := t) fun a ha => h a (by simp [ha])
    obtain ⟨h0, h1⟩ := h c (by simp)
    by_cases h2 : c = 0x28#8
    · rw [h2, opens_open, List.count_cons_self, ih]
    · rw [opens_other h2 h1 h0, List.count_cons_of_ne (by simpa using h2), ih]

theorem hex_digit : ∀ e : Byte, Chars.isHexDigit e = (range 48 57 e || range 65 70 e || range 97 102 e) := by
  decide +kernel

theorem room_captures {n : Nat} {re re1 : Re} (h : room n re = some re1) : re1.captures = re.captures := by
  unfold room at h
  split at h
  · split at h
    · cases h; rfl
    · cases h
  · cases h; rfl

theorem emitLoop_captures : ∀ {vs : List Int} {re re1 : Re} {u : Unit}, emitLoop vs re = .ok u re1 → re1.captures = re.captures
  | [], _, _, _, h => by cases h; rfl
  | v :: vs, re, re1, u, h => by
    rw [emitLoop] at h
    split at h
    · cases h
    · exact (emitLoop_captures (vs := vs) h).trans rfl

theorem emitOps_captures {vs : List Int} {re re1 : Re} {u : Unit} (h : emitOps vs re = .ok u re1) : re1.captures = re.captures := by
  unfold emitOps at h
  split at h
  · rename_i hr
    exact (emitLoop_captures h).trans (room_captures hr)
  · cases h

theorem emitBuffer_captures {bs : List Byte} {re re1 : Re} {u : Unit} (h : emitBuffer bs re = .ok u re1) : re1.captures = re.captures := by
  unfold emitBuffer at h
  split at h
  · rename_i hr
    have := room_captures hr
    cases h
    exact this
  · cases h

theorem branch_captures {b : Nat} {re re1 : Re} {u : Unit} (h : branch b re = .ok u re1) : re1.captures = re.captures := by
  unfold branch at h
  split at h
  · cases h
  · dsimp only at h
    split at h
    · cases h
    · rename_i he
      have := emitOps_captures he
      cases h
      exact this

theorem closeBranch_captures (b : Option Nat) (re : Re) : (closeBranch b re).captures = re.captures := by
  cases b <;> rfl

theorem quantifier_captures {last : Nat} {q : Byte} {re re1 : Re} {u : Unit} (h : compileQuantifier last q re = .ok (.ok u re1)) : re1.captures = re.captures := by
  unfold compileQuantifier at h
  match hs : splits last re, h with
  | .error f, h => simp [except_error_bind] at h
  | .ok true, h =>
    rw [except_ok_bind, if_pos rfl] at h
    match h1 : rd re.buf (last + 1), h with
    | .error f, h => simp [except_error_bind] at h
    | .ok n, h =>
      rw [except_ok_bind] at h
      match h2 : rd re.buf (re.buf.length - 1), h with
      | .error f, h => simp [except_error_bind] at h
      | .ok m, h =>
        rw [except_ok_bind] at h
        exact emitOps_captures (re := { re with buf := (re.buf.set (last + 1) (n - 1#8)).dropLast }) (Except.ok.inj h)
  | .ok false, h =>
    rw [except_ok_bind, if_neg (by decide)] at h
    dsimp only at h
    split at h
    · cases h
    · rename_i he
      split at h
      · cases h
      · have := emitOps_captures he
        cases h
        exact this

theorem room_can {n : Nat} {re re1 : Re} (h : room n re = some re1) : re1.canRealloc = re.canRealloc := by
  unfold room at h
  split at h
  · split at h
    · cases h; rfl
    · cases h
  · cases h; rfl

theorem emitLoop_can : ∀ {vs : List Int} {re re1 : Re} {u : Unit}, emitLoop vs re = .ok u re1 → re1.canRealloc = re.canRealloc
  | [], _, _, _, h => by cases h; rfl
  | v :: vs, re, re1, u, h => by
    rw [emitLoop] at h
    split at h
    · cases h
    · exact (emitLoop_can (vs := vs) h).trans rfl

theorem emitOps_can {vs : List Int} {re re1 : Re} {u : Unit} (h : emitOps vs re = .ok u re1) : re1.canRealloc = re.canRealloc := by
  unfold emitOps at h
  split at h
  · rename_i hr
    exact (emitLoop_can h).trans (room_can hr)
  · cases h

theorem emitBuffer_can {bs : List Byte} {re re1 : Re} {u : Unit} (h : emitBuffer bs re = .ok u re1) : re1.canRealloc = re.canRealloc := by
  unfold emitBuffer at h
  split at h
  · rename_i hr
    have := room_can hr
    cases h
    exact this
  · cases h

theorem branch_can {b : Nat} {re re1 : Re} {u : Unit} (h : branch b re = .ok u re1) : re1.canRealloc = re.canRealloc := by
  unfold branch at h
  split at h
  · cases h
  · dsimp only at h
    split at h
    · cases h
    · rename_i he
      have := emitOps_can he
      cases h
      exact this

theorem closeBranch_can (b : Option Nat) (re : Re) : (closeBranch b re).canRealloc = re.canRealloc := by
  cases b <;> rfl

theorem quantifier_can {last : Nat} {q : Byte} {re re1 : Re} {u : Unit} (h : compileQuantifier last q re = .ok (.ok u re1)) : re1.canRealloc = re.canRealloc := by
  unfold compileQuantifier at h
  match hs : splits last re, h with
  | .error f, h => simp [except_error_bind] at h
  | .ok true, h =>
    rw [except_ok_bind, if_pos rfl] at h
    match h1 : rd re.buf (last + 1), h with
    | .error f, h => simp [except_error_bind] at h
    | .ok n, h =>
      rw [except_ok_bind] at h
      match h2 : rd re.buf (re.buf.length - 1), h with
      | .error f, h => simp [except_error_bind] at h
      | .ok m, h =>
        rw [except_ok_bind] at h
        exact emitOps_can (re := { re with buf := (re.buf.set (last + 1) (n - 1#8)).dropLast }) (Except.ok.inj h)
  | .ok false, h =>
    rw [except_ok_bind, if_neg (by decide)] at h
    dsimp only at h
    split at h
    · cases h
    · rename_i he
      split at h
      · cases h
      · have := emitOps_can he
        cases h
        exact this

theorem runLength_opens {pat : List Byte} {len : Nat} (hl : len ≤ pat.length) : ∀ (n off k : Nat), off ≤ len → runLength pat len n off = .ok k →
    off + k ≤ len ∧ opens ((pat.take len).drop off) = opens ((pat.take len).drop (off + k))
  | 0, _, _, _, h => by simp [runLength] at h
  | n + 1, off, k, ho, h => by
    rw [runLength] at h
    by_cases h1 : off < len
    · obtain ⟨c, -, e, hr⟩ := at_some hl h1
      rw [if_pos h1, hr, except_ok_bind] at h
      split at h
      · cases h; exact ⟨by omega, rfl⟩
      · rename_i hm
        match hk : runLength pat len n (off + 1), h with
        | .ok j, h =>
          rw [except_ok_bind] at h
          cases h
          obtain ⟨h2, h3⟩ := runLength_opens hl n (off + 1) j (by omega) hk
          refine ⟨by omega, ?_⟩
          rw [e, opens_other (by rintro rfl; exact hm (by decide)) (by rintro rfl; exact hm (by decide)) (by rintro rfl; exact hm (by decide)), h3, Nat.add_right_comm, Nat.add_assoc]
        | .error f, h => simp [except_error_bind] at h
    · rw [if_neg h1] at h
      cases h; exact ⟨by omega, rfl⟩

/-- An escape passes over the characters that belong to it. -/
theorem escape_skip {pat : List Byte} {len off o : Nat} {re re1 : Re} (hl : len ≤ pat.length) (ho : off ≤ len) (h : escape pat len off re = .ok (.ok o re1)) :
    o ≤ len ∧ ((pat.take len).drop off).drop (escLength ((pat.take len).drop off)) = (pat.take len).drop o ∧ re1.captures = re.captures ∧ re1.canRealloc = re.canRealloc := by
  unfold escape at h
  by_cases h1 : off < len
  · obtain ⟨c, -, e, hr⟩ := at_some hl h1
    rw [if_pos h1, hr, except_ok_bind] at h
    by_cases h2 : off + 1 < len
    · obtain ⟨d, -, e', hr'⟩ := at_some hl h2
      have hn : (pat.take len).drop off = c :: d :: (pat.take len).drop (off + 2) := by rw [e, e']
      by_cases h3 : Chars.isHexDigit c = true
      · rw [if_pos ⟨h2, h3⟩, hr', except_ok_bind] at h
        split at h
        · cases h
        · rename_i he
          cases h
          refine ⟨h2, ?_, emitOps_captures he, emitOps_can he⟩
          rw [hn, escLength, ← hex_digit, if_pos h3]
          rfl
      · rw [if_neg (fun a => h3 a.2)] at h
        split at h
        · cases h
        · rename_i he
          cases h
          refine ⟨h1, ?_, emitOps_captures he, emitOps_can he⟩
          rw [hn, escLength, ← hex_digit, if_neg h3, e']
          rfl
    · rw [if_neg (fun a => h2 a.1)] at h
      have hn : (pat.take len).drop (off + 1) = [] := List.drop_of_length_le (by rw [List.length_take]; omega)
      split at h
      · cases h
      · rename_i he
        cases h
        refine ⟨h1, ?_, emitOps_captures he, emitOps_can he⟩
        rw [e, hn]
        rfl
  · rw [if_neg h1] at h
    cases h
    have hn : (pat.take len).drop off = [] := List.drop_of_length_le (by rw [List.length_take]; omega)
    refine ⟨ho, ?_, rfl, rfl⟩
    rw [hn]
    rfl

/-- An item of a set passes over the characters that belong to it, and adds no more bytes than these are. -/
theorem groupItem_rest {pat bs : List Byte} {len off off' : Nat} {c : Byte} (hl : len ≤ pat.length) (ho : off < len) (hr : rd pat off = .ok c) (hc : c ≠ 0x5d#8)
    (h : groupItem pat len off = .ok (bs, off')) : off < off' ∧ off + bs.length ≤ off' ∧
      setRest 0 ((pat.take len).drop off) = (setRest 0 ((pat.take len).drop off')).map (· + (off' - off)) := by
  obtain ⟨c', -, e, hr'⟩ := at_some hl ho
  obtain rfl : c' = c := by rw [hr] at hr'; exact (Except.ok.inj hr').symm
  have hcode : ∀ v, (codeBytes v).length ≤ 2 := fun v => by unfold codeBytes; split <;> simp
  unfold groupItem at h
  rw [hr, except_ok_bind] at h
  rw [e, setRest, if_neg hc]
  by_cases h1 : c' = 0x5c#8
  · rw [if_pos h1] at h ⊢
    rw [setRest_drop, Option.map_map]
    by_cases h2 : off + 1 < len
    · obtain ⟨d, -, e2, hr2⟩ := at_some hl h2
      rw [if_pos h2, hr2, except_ok_bind] at h
      by_cases h3 : off + 2 < len
      · obtain ⟨g, -, e3, hr3⟩ := at_some hl h3
        by_cases h4 : Chars.isHexDigit d = true
        · rw [if_pos ⟨h3, h4⟩, hr3, except_ok_bind] at h
          cases h
          refine ⟨by omega, by simp, ?_⟩
          have hn : escLength ((pat.take len).drop (off + 1)) = 2 := by rw [e2, e3, escLength, ← hex_digit, if_pos h4]
          rw [hn, List.drop_drop, show off + 1 + 2 = off + 3 by omega, show off + 3 - off = 3 by omega]
          rfl
        · rw [if_neg (fun a => h4 a.2)] at h
          cases h
          refine ⟨by omega, by have := hcode (encodeEscape d); omega, ?_⟩
          have hn : escLength ((pat.take len).drop (off + 1)) = 1 := by rw [e2, e3, escLength, ← hex_digit, if_neg h4]
          rw [hn, List.drop_drop, show off + 1 + 1 = off + 2 by omega, show off + 2 - off = 2 by omega]
          rfl
      · rw [if_neg (fun a => h3 a.1)] at h
        cases h
        refine ⟨by omega, by have := hcode (encodeEscape d); omega, ?_⟩
        have hz : (pat.take len).drop (off + 2) = [] := List.drop_of_length_le (by rw [List.length_take]; omega)
        have hn : escLength ((pat.take len).drop (off + 1)) = 1 := by rw [e2, show off + 1 + 1 = off + 2 by omega, hz]; rfl
        rw [hn, List.drop_drop, show off + 1 + 1 = off + 2 by omega, hz]
        rfl
    · rw [if_neg h2] at h
      cases h
      refine ⟨by omega, by simp, ?_⟩
      have hz : (pat.take len).drop (off + 1) = [] := List.drop_of_length_le (by rw [List.length_take]; omega)
      have hz' : (pat.take len).drop (off + 2) = [] := List.drop_of_length_le (by rw [List.length_take]; omega)
      rw [hz, hz']
      rfl
  · rw [if_neg h1] at h ⊢
    cases h
    refine ⟨by omega, by simp, ?_⟩
    rw [show off + 1 - off = 1 by omega]

theorem groupItem_total {pat : List Byte} {len off : Nat} (hl : len ≤ pat.length) (ho : off < len) : ∃ r, groupItem pat len off = .ok r := by
  obtain ⟨c, -, -, hr⟩ := at_some hl ho
  unfold groupItem
  rw [hr, except_ok_bind]
  split
  · split
    · rename_i h2
      obtain ⟨d, -, -, hr2⟩ := at_some hl h2
      rw [hr2, except_ok_bind]
      split
      · rename_i h3
        obtain ⟨g, -, -, hr3⟩ := at_some hl h3.1
        rw [hr3, except_ok_bind]
        exact ⟨_, rfl⟩
      · exact ⟨_, rfl⟩
    · exact ⟨_, rfl⟩
  · exact ⟨_, rfl⟩

theorem groupLoop_rest {pat : List Byte} {len : Nat} (hl : len ≤ pat.length) : ∀ (n off : Nat) (buffer : List Byte) (g : Group), groupLoop pat len n off buffer = .ok g →
    (setRest 0 ((pat.take len).drop off) = none → g = .tooLong ∨ g = .unclosed) ∧
    ∀ m, setRest 0 ((pat.take len).drop off) = some m → buffer.length + m ≤ 257 → ∃ b, g = .closed b (off + m) ∧ b.length ≤ 256 ∧ off + m ≤ len
  | 0, _, _, _, h => by simp [groupLoop] at h
  | n + 1, off, buffer, g, h => by
    rw [groupLoop] at h
    by_cases h1 : off < len
    · obtain ⟨c, -, e, hr⟩ := at_some hl h1
      rw [if_pos h1, hr, except_ok_bind] at h
      by_cases h2 : c = 0x5d#8
      · rw [if_pos h2] at h
        cases h
        have hs : setRest 0 ((pat.take len).drop off) = some 1 := by rw [e, setRest, if_pos h2]
        rw [hs]
        refine ⟨by simp, fun m hm hb => ?_⟩
        cases hm
        exact ⟨buffer, rfl, by omega, h1⟩
      · rw [if_neg h2] at h
        match hi : groupItem pat len off, h with
        | .ok (bs, off'), h =>
          obtain ⟨k1, k2, k3⟩ := groupItem_rest hl h1 hr h2 hi
          by_cases h3 : buffer.length ≥ 256
          · rw [if_pos h3] at h
            cases h
            refine ⟨fun _ => .inl rfl, fun m hm hb => ?_⟩
            rw [k3] at hm
            obtain ⟨a, ha, rfl⟩ := Option.map_eq_some_iff.mp hm
            have := setRest_pos ha
            omega
          · rw [if_neg h3, except_ok_bind] at h
            dsimp only at h
            by_cases h4 : buffer.length + bs.length > 256
            · rw [if_pos h4] at h
              cases h
              refine ⟨fun _ => .inl rfl, fun m hm hb => ?_⟩
              rw [k3] at hm
              obtain ⟨a, ha, rfl⟩ := Option.map_eq_some_iff.mp hm
              have := setRest_pos ha
              omega
            · rw [if_neg h4] at h
              obtain ⟨i1, i2⟩ := groupLoop_rest hl n off' _ _ h
              rw [k3]
              refine ⟨fun hm => i1 (by simpa using hm), fun m hm hb => ?_⟩
              obtain ⟨a, ha, rfl⟩ := Option.map_eq_some_iff.mp hm
              obtain ⟨b, j1, j2, j3⟩ := i2 a ha (by rw [List.length_append]; omega)
              exact ⟨b, by rw [j1]; congr 1; omega, j2, by omega⟩
        | .error f, h =>
          obtain ⟨r, h3⟩ := groupItem_total hl h1
          rw [h3] at hi
          cases hi
    · rw [if_neg h1] at h
      cases h
      have hz : (pat.take len).drop off = [] := List.drop_of_length_le (by rw [List.length_take]; omega)
      rw [hz]
      exact ⟨fun _ => .inr rfl, fun m hm => by simp [setRest] at hm⟩

/-- A set is passed over when it is closed, and is no set when it is not. -/
theorem parseGroup_skip {pat : List Byte} {len off : Nat} {re : Re} {r : Res Nat} (hl : len ≤ pat.length) (hcan : re.canRealloc = true)
    (hs : ∀ m, setLength ((pat.take len).drop off) = some m → m ≤ 257) (h : parseGroup pat len off re = .ok r) :
    (∃ e, r = .err e re ∧ setLength ((pat.take len).drop off) = none) ∨
    ∃ o re1, r = .ok o re1 ∧ o ≤ len ∧ ((pat.take len).drop off).drop ((setLength ((pat.take len).drop off)).getD 0) = (pat.take len).drop o ∧ re1.captures = re.captures ∧ re1.canRealloc = true := by
  unfold parseGroup at h
  match hr : rd pat off, h with
  | .error f, h => simp [except_error_bind] at h
  | .ok c, h =>
    rw [except_ok_bind] at h
    dsimp only at h
    match hg : groupLoop pat len (len + 1) (if (decide (c = 0x5e#8)) = true then off + 1 else off) [], h with
    | .error f, h => simp [except_error_bind] at h
    | .ok g, h =>
      rw [except_ok_bind] at h
      obtain ⟨k1, k2⟩ := groupLoop_rest hl _ _ _ _ hg
      have hlen : setLength ((pat.take len).drop off) =
          (setRest 0 ((pat.take len).drop (if (decide (c = 0x5e#8)) = true then off + 1 else off))).map (· + ((if (decide (c = 0x5e#8)) = true then off + 1 else off) - off)) := by
        by_cases h1 : off < len
        · obtain ⟨c', -, e, hr'⟩ := at_some hl h1
          obtain rfl : c' = c := by rw [hr] at hr'; exact (Except.ok.inj hr').symm
          rw [e, setLength]
          by_cases hc : c' = 0x5e#8
          · simp [hc]
          · simp [hc, e]
        · have hz : ∀ k, off ≤ k → (pat.take len).drop k = [] := fun k hk => List.drop_of_length_le (by rw [List.length_take]; omega)
          rw [hz off (Nat.le_refl _), hz _ (by split <;> omega)]
          rfl
      match hq : setRest 0 ((pat.take len).drop (if (decide (c = 0x5e#8)) = true then off + 1 else off)) with
      | none =>
        rw [hq] at hlen
        rcases k1 hq with rfl | rfl
        · cases h
          exact .inl ⟨_, rfl, hlen⟩
        · cases h
          exact .inl ⟨_, rfl, hlen⟩
      | some m =>
        rw [hq, Option.map_some] at hlen
        have hm := hs _ hlen
        obtain ⟨b, j1, j2, j3⟩ := k2 m hq (by simp; omega)
        subst j1
        dsimp only at h
        obtain ⟨re1, e1, g1⟩ := emitOps_ok (vs := [if (decide (c = 0x5e#8)) = true then 8 else 7, (b.length : Int)]) (re := re) hcan (by
          intro v hv
          simp only [List.mem_cons, List.not_mem_nil, or_false] at hv
          rcases hv with rfl | rfl
          · split <;> omega
          · omega)
        obtain ⟨re2, e2, g2⟩ := emitBuffer_ok (bs := b) (re := re1) g1.can
        unfold emitGroup at h
        rw [e1] at h
        dsimp only at h
        rw [e2] at h
        cases h
        refine .inr ⟨_, _, rfl, j3, ?_, ?_, g2.can⟩
        · rw [hlen, Option.getD_some, List.drop_drop]
          congr 1
          split <;> omega
        · rw [g2.caps, g1.caps]
          omega

/-- From `off` to `o` the counter has grown by the groups that are opened there. -/
def Opened (pat : List Byte) (len off : Nat) (re : Re) (o : Nat) (re' : Re) : Prop :=
  re'.captures + opens ((pat.take len).drop o) = re.captures + opens ((pat.take len).drop off) ∧ re'.canRealloc = true

theorem Opened.back {pat : List Byte} {len off off' o : Nat} {re re1 re' : Re} (h : Opened pat len off' re1 o re')
    (hd : opens ((pat.take len).drop off) = opens ((pat.take len).drop off')) (hc : re1.captures = re.captures) : Opened pat len off re o re' := by
  unfold Opened at h ⊢
  exact ⟨by omega, h.2⟩

theorem parse_count {pat : List Byte} {len : Nat} (hl : len ≤ pat.length) (hp : ShortSets (pat.take len)) : ∀ (n : Nat) (re : Re) (last begin_ : Nat)
    (br : Option Nat) (off level o : Nat) (re' : Re), re.canRealloc = true → off ≤ len → parse pat len n re last begin_ br off level = .ok (.ok o re') → Opened pat len off re o re'
  | 0, _, _, _, _, _, _, _, _, _, _, h => by simp [parse] at h
  | n + 1, re, last, begin_, br, off, level, o, re', hcan, ho, h => by
    rw [parse] at h
    by_cases h1 : off < len
    · obtain ⟨c, hc, e, hr⟩ := at_some hl h1
      have hskip : c ≠ 0x28#8 → c ≠ 0x5c#8 → c ≠ 0x5b#8 → opens ((pat.take len).drop off) = opens ((pat.take len).drop (off + 1)) :=
        fun a b d => by rw [e, opens_other a b d]
      rw [if_pos h1, hr, except_ok_bind] at h
      by_cases c1 : c = 0x5e#8
      · rw [if_pos c1] at h
        match he : emitOps [2] re, h with
        | .ok _ re1, h => exact (parse_count hl hp n _ _ _ _ _ _ _ _ ((emitOps_can he).trans hcan) h1 h).back (hskip (by rw [c1]; decide) (by rw [c1]; decide) (by rw [c1]; decide)) (emitOps_captures he)
      rw [if_neg c1] at h
      by_cases c2 : c = 0x24#8
      · rw [if_pos c2] at h
        match he : emitOps [3] re, h with
        | .ok _ re1, h => exact (parse_count hl hp n _ _ _ _ _ _ _ _ ((emitOps_can he).trans hcan) h1 h).back (hskip (by rw [c2]; decide) (by rw [c2]; decide) (by rw [c2]; decide)) (emitOps_captures he)
      rw [if_neg c2] at h
      by_cases c3 : c = 0x28#8
      · rw [if_pos c3] at h
        have hopen : opens ((pat.take len).drop off) = opens ((pat.take len).drop (off + 1)) + 1 := by rw [e, c3, opens_open]
        match he : emitOps [0, re.captures] { re with captures := re.captures + 1 }, h with
        | .ok _ re1, h =>
          dsimp only at h
          match hn : parse pat len n re1 re1.buf.length re1.buf.length none (off + 1) (level + 1), h with
          | .ok (.ok o1 re2), h =>
            rw [except_ok_bind] at h
            dsimp only at h
            have hq := parse_count hl hp n _ _ _ _ _ _ _ _ ((emitOps_can he).trans hcan) h1 hn
            split at h
            · cases h
            · rename_i hle
              match hb : rd pat (o1 - 1), h with
              | .ok b, h =>
                rw [except_ok_bind] at h
                split at h
                · cases h
                · rename_i hb'
                  match he2 : emitOps [1, re.captures] re2, h with
                  | .ok _ re3, h =>
                    dsimp only at h
                    have ih := parse_count hl hp n _ _ _ _ _ _ _ _ ((emitOps_can he2).trans hq.2) (by omega) h
                    have k1 := emitOps_captures he
                    have k2 := emitOps_captures he2
                    unfold Opened at hq ih ⊢
                    rw [Nat.succ_eq_add_one] at hq
                    dsimp only at k1
                    exact ⟨by omega, ih.2⟩
              | .error f, h => simp [except_error_bind] at h
          | .ok (.err e2 re2), h =>
            rw [except_ok_bind] at h
            dsimp only at h
            exfalso
            rw [if_neg (by omega), Nat.add_sub_cancel, hr, except_ok_bind, if_pos (by rw [c3]; decide)] at h
            cases h
          | .error f, h => simp [except_error_bind] at h
      rw [if_neg c3] at h
      by_cases c4 : c = 0x29#8
      · rw [if_pos c4] at h
        dsimp only at h
        split at h
        · cases h
        · rename_i hlv
          cases h
          unfold Opened
          rw [hskip (by rw [c4]; decide) (by rw [c4]; decide) (by rw [c4]; decide), closeBranch_captures, closeBranch_can]
          exact ⟨rfl, hcan⟩
      rw [if_neg c4] at h
      by_cases c0 : c = 0x5b#8
      · rw [if_pos c0] at h
        match hz : parseGroup pat len (off + 1) re, h with
        | .error f, h => simp [except_error_bind] at h
        | .ok r, h =>
          rw [except_ok_bind] at h
          rcases parseGroup_skip hl hcan (fun m hm => hp off _ m (by rw [e, c0]) hm) hz with ⟨e1, rfl, h2⟩ | ⟨o1, re1, rfl, h2, h3, h4, h5⟩
          · dsimp only at h
            refine (parse_count hl hp n _ _ _ _ _ _ _ _ hcan h1 h).back ?_ rfl
            rw [e, c0, opens_set, h2]
            rfl
          · dsimp only at h
            rw [if_neg (by omega)] at h
            refine (parse_count hl hp n _ _ _ _ _ _ _ _ h5 h2 h).back ?_ h4
            rw [e, c0, opens_set, h3]
      rw [if_neg c0] at h
      by_cases c5 : c = 0x7c#8
      · rw [if_pos c5] at h
        have hs := hskip c3 (by rw [c5]; decide) c0
        match he : branch begin_ re, h with
        | .ok _ re1, h => exact (parse_count hl hp n _ _ _ _ _ _ _ _ ((branch_can he).trans hcan) h1 h).back hs (branch_captures he)
      rw [if_neg c5] at h
      by_cases c6 : c = 0x2e#8
      · rw [if_pos c6] at h
        have hs := hskip c3 (by rw [c6]; decide) c0
        match he : emitOps [6] re, h with
        | .ok _ re1, h => exact (parse_count hl hp n _ _ _ _ _ _ _ _ ((emitOps_can he).trans hcan) h1 h).back hs (emitOps_captures he)
      rw [if_neg c6] at h
      by_cases c7 : c = 0x2a#8 ∨ c = 0x2b#8
      · rw [if_pos c7] at h
        have hs := hskip c3 (by rcases c7 with c7 | c7 <;> rw [c7] <;> decide) c0
        match hq : quantifiable re last, h with
        | .ok true, h =>
          rw [except_ok_bind, if_pos rfl] at h
          match hz : lazyMark pat len (off + 1), h with
          | .ok lz, h =>
            rw [except_ok_bind] at h
            dsimp only at h
            match hcq : compileQuantifier last (if lz = true then 12#8 else if c = 0x2a#8 then 9#8 else 10#8) re, h with
            | .ok (.ok _ re1), h =>
              rw [except_ok_bind] at h
              dsimp only at h
              cases lz with
              | false => exact (parse_count hl hp n _ _ _ _ _ _ _ _ ((quantifier_can hcq).trans hcan) h1 h).back hs (quantifier_captures hcq)
              | true =>
                unfold lazyMark at hz
                split at hz
                · rename_i h2
                  obtain ⟨c', -, e', hr'⟩ := at_some hl h2
                  rw [hr', except_ok_bind] at hz
                  have hc' : c' = 0x3f#8 := by
                    have := Except.ok.inj hz
                    simpa using this
                  refine (parse_count hl hp n _ _ _ _ _ _ _ _ ((quantifier_can hcq).trans hcan) h2 h).back ?_ (quantifier_captures hcq)
                  rw [hs, e', opens_other (by rw [hc']; decide) (by rw [hc']; decide) (by rw [hc']; decide)]
                · cases hz
            | .ok (.err _ _), h => rw [except_ok_bind] at h; cases h
            | .error f, h => simp [except_error_bind] at h
          | .error f, h => simp [except_error_bind] at h
        | .ok false, h => rw [except_ok_bind, if_neg (by decide)] at h; cases h
        | .error f, h => simp [except_error_bind] at h
      rw [if_neg c7] at h
      by_cases c8 : c = 0x3f#8
      · rw [if_pos c8] at h
        have hs := hskip c3 (by rw [c8]; decide) c0
        match hq : quantifiable re last, h with
        | .ok true, h =>
          rw [except_ok_bind, if_pos rfl] at h
          match hcq : compileQuantifier last 13#8 re, h with
          | .ok (.ok _ re1), h =>
            rw [except_ok_bind] at h
            exact (parse_count hl hp n _ _ _ _ _ _ _ _ ((quantifier_can hcq).trans hcan) h1 h).back hs (quantifier_captures hcq)
          | .ok (.err _ _), h => rw [except_ok_bind] at h; cases h
          | .error f, h => simp [except_error_bind] at h
        | .ok false, h => rw [except_ok_bind, if_neg (by decide)] at h; cases h
        | .error f, h => simp [except_error_bind] at h
      rw [if_neg c8] at h
      by_cases c9 : c = 0x5c#8
      · rw [if_pos c9] at h
        match hz : escape pat len (off + 1) re, h with
        | .ok (.ok o1 re1), h =>
          rw [except_ok_bind] at h
          dsimp only at h
          obtain ⟨h2, h3, h4⟩ := escape_skip hl h1 hz
          refine (parse_count hl hp n _ _ _ _ _ _ _ _ (h4.2.trans hcan) h2 h).back ?_ h4.1
          rw [e, c9, opens_escape, h3]
        | .ok (.err _ _), h => rw [except_ok_bind] at h; cases h
        | .error f, h => simp [except_error_bind] at h
      rw [if_neg c9] at h
      match hz : literal pat len off re, h with
      | .ok (.ok k re1), h =>
        rw [except_ok_bind] at h
        dsimp only at h
        unfold literal at hz
        match hk : runLength pat len (len + 1) off, hz with
        | .ok j, hz =>
          rw [except_ok_bind] at hz
          obtain ⟨h2, h3⟩ := runLength_opens hl _ _ _ ho hk
          have hj : j = k ∧ re1.captures = re.captures ∧ re1.canRealloc = re.canRealloc := by
            split at hz
            · cases hz
            · rename_i he1
              split at hz
              · cases hz
              · rename_i he2
                cases hz
                exact ⟨rfl, (emitBuffer_captures he2).trans (emitOps_captures he1), (emitBuffer_can he2).trans (emitOps_can he1)⟩
          obtain ⟨rfl, hk2⟩ := hj
          exact (parse_count hl hp n _ _ _ _ _ _ _ _ (hk2.2.trans hcan) h2 h).back h3 hk2.1
        | .error f, hz => simp [except_error_bind] at hz
      | .ok (.err _ _), h => rw [except_ok_bind] at h; cases h
      | .error f, h => simp [except_error_bind] at h
    · rw [if_neg h1] at h
      cases h
      exact ⟨rfl, hcan⟩

/-! ## Property theorems -/

/-- C173: after a pattern was accepted, `zpl_re_capture_count` is the number of groups opened in it: its opening brackets that belong neither to an escape nor to a set.
Missing, and false by `C173_long_set`: patterns with sets of more than 256 characters. -/
theorem C173_count_partial {pat : List Byte} {len : Nat} {re : Re} (hl : len ≤ pat.length) (hp : ShortSets (pat.take len))
    (h : compile pat len = .ok (.none, re, false)) : captureCount re = opens (pat.take len) := by
  unfold compile at h
  match hr : parse pat len (len + 1) { buf := [], cap := len + 128, canRealloc := true, captures := 0 } 0 0 none 0 0, h with
  | .ok (.ok o re1), h =>
    have hg := parse_count hl hp _ _ _ _ _ _ _ _ _ rfl (Nat.zero_le _) hr
    rw [except_ok_bind] at h
    obtain ⟨-, h2⟩ := Prod.mk.inj (Except.ok.inj h)
    obtain ⟨h3, h4⟩ := Prod.mk.inj h2
    have ho : o = len := by simpa using h4
    subst ho
    subst h3
    unfold Opened at hg
    rw [List.drop_of_length_le (by rw [List.length_take]; omega), List.drop_zero, show opens [] = 0 from rfl] at hg
    unfold captureCount
    dsimp only at hg
    have := hg.1
    omega
  | .ok (.err e re1), h =>
    rw [except_ok_bind] at h
    have h0 : len = 0 := by
      have := (Prod.mk.inj (Prod.mk.inj (Except.ok.inj h)).2).2
      have h0 : 0 = len := by simpa using this
      exact h0.symm
    subst h0
    simp [parse] at hr
  | .error f, h => simp [except_error_bind] at h

theorem setRest_le : ∀ {k : Nat} {s : List Byte} {m : Nat}, setRest k s = some m → m ≤ s.length
  | k, [], m, h => by simp [setRest] at h
  | k + 1, c :: t, m, h => by
    rw [setRest] at h
    obtain ⟨a, ha, rfl⟩ := Option.map_eq_some_iff.mp h
    simpa using setRest_le ha
  | 0, c :: t, m, h => by
    rw [setRest] at h
    split at h
    · cases h; simp
    · obtain ⟨a, ha, rfl⟩ := Option.map_eq_some_iff.mp h
      simpa using setRest_le ha

theorem shortSets {s : List Byte} (h : s.length ≤ 258) : ShortSets s := by
  intro k t m hk hm
  have h1 : m ≤ t.length := by
    unfold setLength at hm
    split at hm
    · cases hm
    · split at hm
      · obtain ⟨a, ha, rfl⟩ := Option.map_eq_some_iff.mp hm
        simpa using setRest_le ha
      · exact setRest_le hm
  have h2 : (s.drop k).length = t.length + 1 := by rw [hk]; rfl
  rw [List.length_drop] at h2
  omega

/-- C173, for all patterns of up to 258 characters, with sets and escapes as they come. -/
theorem C173_short {pat : List Byte} {len : Nat} {re : Re} (hl : len ≤ pat.length) (hs : len ≤ 258) (h : compile pat len = .ok (.none, re, false)) :
    captureCount re = opens (pat.take len) :=
  C173_count_partial hl (shortSets (by rw [List.length_take]; omega)) h

/-- `[^(\](](a[)])` has one: the other brackets belong to sets. -/
example : ∃ re, compile [0x5b#8, 0x5e#8, 0x28#8, 0x5c#8, 0x5d#8, 0x28#8, 0x5d#8, 0x28#8, 0x61#8, 0x5b#8, 0x29#8, 0x5d#8, 0x29#8] 13 = .ok (.none, re, false) ∧ captureCount re = 1 ∧
    opens [0x5b#8, 0x5e#8, 0x28#8, 0x5c#8, 0x5d#8, 0x28#8, 0x5d#8, 0x28#8, 0x61#8, 0x5b#8, 0x29#8, 0x5d#8, 0x29#8] = 1 := ⟨_, rfl, rfl, by decide⟩

/-- C173, without escapes and sets: it is the number of opening brackets. -/
theorem C173_plain {pat : List Byte} {len : Nat} {re : Re} (hl : len ≤ pat.length) (hp : Plain (pat.take len))
    (h : compile pat len = .ok (.none, re, false)) : captureCount re = (pat.take len).count 0x28#8 := by
  rw [C173_count_partial hl (fun k t m hk _ => absurd rfl (hp 0x5b#8 (List.mem_of_mem_drop (by rw [hk]; simp))).1) h, opens_plain hp]

/-- `\((a)\4((b)` has two: the first bracket stands for itself, and the one behind `\4` is taken for the second digit of a code. -/
example : ∃ re, compile [0x5c#8, 0x28#8, 0x28#8, 0x61#8, 0x29#8, 0x5c#8, 0x34#8, 0x28#8, 0x28#8, 0x62#8, 0x29#8] 11 = .ok (.none, re, false) ∧ captureCount re = 2 ∧
    opens [0x5c#8, 0x28#8, 0x28#8, 0x61#8, 0x29#8, 0x5c#8, 0x34#8, 0x28#8, 0x28#8, 0x62#8, 0x29#8] = 2 := ⟨_, rfl, rfl, by decide⟩

/-- In a set or behind a backslash a round bracket opens no group, so the plain number of brackets is not that of the groups there. -/
theorem C173_escaped : ∃ re re', compile [0x5c#8, 0x28#8] 2 = .ok (.none, re, false) ∧ captureCount re = 0 ∧
    compile [0x5b#8, 0x28#8, 0x5d#8] 3 = .ok (.none, re', false) ∧ captureCount re' = 0 := ⟨_, _, rfl, rfl, rfl, rfl⟩

/-- `(a(b)|c*)(d)` has three. -/
example : ∃ re, compile [0x28#8, 0x61#8, 0x28#8, 0x62#8, 0x29#8, 0x7c#8, 0x63#8, 0x2a#8, 0x29#8, 0x28#8, 0x64#8, 0x29#8] 12 = .ok (.none, re, false) ∧ captureCount re = 3 :=
  ⟨_, rfl, rfl⟩

/-! ### The limit of the numbers -/

/-- `n` empty groups, one after the other. -/
def groupsText (n : Nat) : List Byte := (List.replicate n [0x28#8, 0x29#8]).flatten

theorem groupsText_length (n : Nat) : (groupsText n).length = 2 * n := by simp [groupsText]; omega

/-- An empty group with a number up to 256: its two instructions carry the number as a byte. -/
theorem parse_empty_group {pat t : List Byte} {len off : Nat} {re : Re} (hc : re.canRealloc = true) (hk : re.captures ≤ 256) (h : (pat.take len).drop off = 0x28#8 :: 0x29#8 :: t)
    (n last begin_ : Nat) (br : Option Nat) (level : Nat) : ∃ re', parse pat len (n + 2) re last begin_ br off level = parse pat len (n + 1) re' re.buf.length begin_ br (off + 2) level ∧
      re'.buf = re.buf ++ [0#8, BitVec.ofNat 8 re.captures, 1#8, BitVec.ofNat 8 re.captures] ∧ re'.captures = re.captures + 1 ∧ re'.canRealloc = true := by
  obtain ⟨h1, h2, h3⟩ := at_cons h
  obtain ⟨h4, h5, -⟩ := at_cons h3
  obtain ⟨re1, e1, g1⟩ := emitOps_ok (vs := [0, (re.captures : Int)]) (re := { re with captures := re.captures + 1 }) hc (by simp; omega)
  obtain ⟨re2, e2, g2⟩ := emitOps_ok (vs := [1, (re.captures : Int)]) (re := re1) g1.can (by simp; omega)
  refine ⟨re2, ?_, ?_, ?_, g2.can⟩
  · have inner : parse pat len (n + 1) re1 re1.buf.length re1.buf.length none (off + 1) (level + 1) = .ok (.ok (off + 1 + 1) re1) := by
      rw [parse, if_pos h4, h5, except_ok_bind]
      simp only [BitVec.reduceEq, if_false, if_true]
      rw [if_neg (by omega)]
      rfl
    rw [parse, if_pos h1, h2, except_ok_bind]
    simp only [BitVec.reduceEq, if_false, if_true]
    rw [e1]
    dsimp only
    rw [inner, except_ok_bind]
    dsimp only
    rw [if_neg (by omega), Nat.add_sub_cancel, h5, except_ok_bind, if_neg (by simp), e2]
  · rw [g2.buf, g1.buf]
    simp
  · exact (emitOps_captures e2).trans (emitOps_captures e1)

theorem parse_groups {pat t : List Byte} {len : Nat} : ∀ (k off fuel : Nat) (re : Re) (last : Nat), re.canRealloc = true → re.captures + k ≤ 257 →
    (pat.take len).drop off = groupsText k ++ t → ∃ re' last', parse pat len (fuel + 1 + k) re last 0 none off 0 = parse pat len (fuel + 1) re' last' 0 none (off + 2 * k) 0 ∧
      re'.buf = re.buf ++ (List.range' re.captures k).flatMap (fun i => [0#8, BitVec.ofNat 8 i, 1#8, BitVec.ofNat 8 i]) ∧ re'.captures = re.captures + k ∧ re'.canRealloc = true
  | 0, off, fuel, re, last, hc, _, _ => ⟨re, last, rfl, by simp, rfl, hc⟩
  | k + 1, off, fuel, re, last, hc, hk, h => by
    have h' : (pat.take len).drop off = 0x28#8 :: 0x29#8 :: (groupsText k ++ t) := by rw [h]; simp [groupsText, List.replicate_succ]
    obtain ⟨re1, e1, b1, c1, d1⟩ := parse_empty_group hc (by omega) h' (fuel + k) last 0 none 0
    obtain ⟨-, -, h3⟩ := at_cons h'
    obtain ⟨-, -, h4⟩ := at_cons h3
    obtain ⟨re2, last2, e2, b2, c2, d2⟩ := parse_groups k (off + 1 + 1) fuel re1 re.buf.length d1 (by omega) h4
    refine ⟨re2, last2, ?_, ?_, by omega, d2⟩
    · rw [show fuel + 1 + (k + 1) = fuel + k + 2 by omega, e1, show fuel + k + 1 = fuel + 1 + k by omega, show off + 2 = off + 1 + 1 by omega, e2,
        show off + 1 + 1 + 2 * k = off + 2 * (k + 1) by omega]
    · rw [b2, b1, c1, List.range'_succ, List.flatMap_cons, List.append_assoc]

/-- C173, what the numbers are good for: up to 257 groups are accepted, and the group with the number `i` is compiled with the byte `i` modulo 256: the 257th group writes to the capture
of the first. -/
theorem C173_wraps {n : Nat} (hn : n ≤ 257) (rest : List Byte) : ∃ re, compile (groupsText n ++ rest) (2 * n) = .ok (.none, re, false) ∧ captureCount re = n ∧
    re.buf = (List.range n).flatMap (fun i => [0#8, BitVec.ofNat 8 (i % 256), 1#8, BitVec.ofNat 8 (i % 256)]) := by
  have ht : ((groupsText n ++ rest).take (2 * n)).drop 0 = groupsText n ++ [] := by
    rw [List.drop_zero, List.append_nil, ← groupsText_length n]
    exact List.take_left
  obtain ⟨re, last, e, b, c, -⟩ := parse_groups n 0 n { buf := [], cap := 2 * n + 128, canRealloc := true, captures := 0 } 0 rfl (by simpa using hn) ht
  refine ⟨re, ?_, by simpa [captureCount] using c, ?_⟩
  · rw [compile, show 2 * n + 1 = n + 1 + n by omega, e, parse, if_neg (by omega), except_ok_bind]
    simp
  · rw [b, List.nil_append, List.range_eq_range']
    have : ∀ i, BitVec.ofNat 8 (i % 256) = BitVec.ofNat 8 i := fun i => by
      apply BitVec.eq_of_toNat_eq
      simp
    simp only [this]

/-- More than 257 groups are refused. -/
theorem C173_too_many {n : Nat} (hn : 257 < n) (rest : List Byte) : ∃ re, compile (groupsText n ++ rest) (2 * n) = .ok (.tooLong, re, true) := by
  obtain ⟨m, rfl⟩ : ∃ m, n = 257 + (m + 1) := ⟨n - 258, by omega⟩
  have hs : groupsText (257 + (m + 1)) = groupsText 257 ++ groupsText (m + 1) := by
    unfold groupsText
    rw [← List.replicate_append_replicate, List.flatten_append]
  have ht : ((groupsText (257 + (m + 1)) ++ rest).take (2 * (257 + (m + 1)))).drop 0 = groupsText 257 ++ groupsText (m + 1) := by
    rw [List.drop_zero, ← groupsText_length (257 + (m + 1)), List.take_left, hs]
  obtain ⟨re, last, e, b, c, d⟩ := parse_groups 257 0 (257 + 2 * (m + 1)) { buf := [], cap := 2 * (257 + (m + 1)) + 128, canRealloc := true, captures := 0 } 0 rfl (by simp) ht
  have h2 : ((groupsText (257 + (m + 1)) ++ rest).take (2 * (257 + (m + 1)))).drop (0 + 2 * 257) = 0x28#8 :: 0x29#8 :: groupsText m := by
    rw [← List.drop_drop, ht, show 2 * 257 = (groupsText 257).length from (groupsText_length 257).symm, List.drop_left]
    simp [groupsText, List.replicate_succ]
  obtain ⟨k1, k2, -⟩ := at_cons h2
  have c' : re.captures = 257 := by simpa using c
  obtain ⟨re2, e2⟩ : ∃ re2, emitOps [0, (re.captures : Int)] { re with captures := re.captures + 1 } = .err .tooLong re2 := by
    rw [c']
    unfold emitOps
    obtain ⟨cap, -, hr⟩ := room_ok [0, ((257 : Nat) : Int)].length (re := { re with captures := 257 + 1 }) d
    rw [hr]
    exact ⟨_, rfl⟩
  refine ⟨re2, ?_⟩
  rw [compile, show 2 * (257 + (m + 1)) + 1 = 257 + 2 * (m + 1) + 1 + 257 by omega, e, parse, if_pos k1, k2, except_ok_bind]
  simp only [BitVec.reduceEq, if_false, if_true]
  rw [e2, except_ok_bind]
  simp

/-- The 257th of 257 groups has the number of the first. -/
example : ∃ re, compile (groupsText 257) (2 * 257) = .ok (.none, re, false) ∧ captureCount re = 257 ∧ re.buf.drop (4 * 256) = [0#8, 0#8, 1#8, 0#8] := by
  obtain ⟨re, h1, h2, h3⟩ := C173_wraps (n := 257) (by omega) []
  rw [List.append_nil] at h1
  exact ⟨re, h1, h2, by rw [h3]; decide +kernel⟩

/-! ### Long sets -/

/-- A set with more than 256 characters, none of them a bracket that closes it or a backslash, is too long. -/
theorem groupLoop_long {pat t : List Byte} {len : Nat} : ∀ (s : List Byte) (n off : Nat) (buffer : List Byte), (∀ c ∈ s, c ≠ 0x5d#8 ∧ c ≠ 0x5c#8) → s.length ≤ n →
    (pat.take len).drop off = s ++ t → 256 < buffer.length + s.length → buffer.length ≤ 256 → groupLoop pat len n off buffer = .ok .tooLong
  | [], n, off, buffer, _, _, _, h1, h2 => by simp at h1; omega
  | c :: s, 0, off, buffer, _, hn, _, _, _ => by simp at hn
  | c :: s, n + 1, off, buffer, hs, hn, h, h1, h2 => by
    obtain ⟨k1, k2, k3⟩ := at_cons h
    obtain ⟨c1, c2⟩ := hs c (by simp)
    rw [groupLoop, if_pos k1, k2, except_ok_bind, if_neg c1]
    by_cases h3 : buffer.length ≥ 256
    · rw [if_pos h3]
    · have hi : groupItem pat len off = .ok ([c], off + 1) := by rw [groupItem, k2, except_ok_bind, if_neg c2]
      rw [if_neg h3, hi, except_ok_bind]
      dsimp only
      rw [if_neg (by simp; omega)]
      exact groupLoop_long s n (off + 1) _ (fun a ha => hs a (by simp [ha])) (by simpa using hn) k3 (by simp at h1 ⊢; omega) (by simp; omega)

theorem parse_dots {pat t : List Byte} {len : Nat} : ∀ (k off fuel : Nat) (re : Re) (last : Nat), re.canRealloc = true →
    (pat.take len).drop off = List.replicate k 0x2e#8 ++ t → ∃ re' last', parse pat len (fuel + k) re last 0 none off 0 = parse pat len fuel re' last' 0 none (off + k) 0 ∧
      re'.captures = re.captures ∧ re'.canRealloc = true
  | 0, off, fuel, re, last, hc, _ => ⟨re, last, rfl, rfl, hc⟩
  | k + 1, off, fuel, re, last, hc, h => by
    rw [List.replicate_succ, List.cons_append] at h
    obtain ⟨k1, k2, k3⟩ := at_cons h
    obtain ⟨re1, e1, g1⟩ := emitOps_ok (vs := [6]) (re := re) hc (by simp)
    obtain ⟨re2, last2, e2, c2, d2⟩ := parse_dots k (off + 1) fuel re1 re.buf.length g1.can k3
    refine ⟨re2, last2, ?_, by rw [c2, g1.caps]; rfl, d2⟩
    rw [show fuel + (k + 1) = fuel + k + 1 by omega, parse, if_pos k1, k2, except_ok_bind]
    simp only [BitVec.reduceEq, if_false, if_true]
    rw [e1]
    dsimp only
    rw [e2, show off + 1 + k = off + (k + 1) by omega]

/-- `[()`, `n` dots and `[b]`: one set, in which the second `[` is a character like the others. -/
def longSet (n : Nat) : List Byte := 0x5b#8 :: 0x28#8 :: 0x29#8 :: (List.replicate n 0x2e#8 ++ [0x5b#8, 0x62#8, 0x5d#8])

theorem longSet_length (n : Nat) : (longSet n).length = n + 6 := by simp [longSet]

theorem setRest_dots (n : Nat) : setRest 0 (List.replicate n 0x2e#8 ++ [0x5b#8, 0x62#8, 0x5d#8]) = some (n + 3) := by
  induction n with
  | zero => rfl
  | succ n ih =>
    rw [List.replicate_succ, List.cons_append, setRest, if_neg (by decide), if_neg (by decide), ih, Option.map_some]

theorem longSet_opens (n : Nat) : opens (longSet n) = 0 := by
  have h : setLength (0x28#8 :: 0x29#8 :: (List.replicate n 0x2e#8 ++ [0x5b#8, 0x62#8, 0x5d#8])) = some (n + 5) := by
    rw [setLength, if_neg (by decide), setRest, if_neg (by decide), if_neg (by decide), setRest, if_neg (by decide), if_neg (by decide), setRest_dots]
    rfl
  rw [longSet, opens_set, h, Option.getD_some, List.drop_of_length_le (by simp)]
  rfl

/-- C173 is false for longer sets: a set with more than 256 characters is no error, its `[` is dropped and the rest taken as it stands, so that a bracket in it opens a group. -/
theorem C173_long_set {n : Nat} (hn : 253 ≤ n) : opens (longSet n) = 0 ∧ ∃ re, compile (longSet n) (n + 6) = .ok (.none, re, false) ∧ captureCount re = 1 := by
  refine ⟨longSet_opens n, ?_⟩
  have ht : (longSet n).take (n + 6) = longSet n := List.take_of_length_le (Nat.le_of_eq (longSet_length n))
  have h0 : ((longSet n).take (n + 6)).drop 0 = 0x5b#8 :: ((0x28#8 :: 0x29#8 :: (List.replicate n 0x2e#8 ++ [0x5b#8, 0x62#8])) ++ [0x5d#8]) := by
    rw [ht]; simp [longSet]
  obtain ⟨a1, a2, a3⟩ := at_cons h0
  have hlong : ∀ re, parseGroup (longSet n) (n + 6) (0 + 1) re = .ok (.err .tooLong re) := by
    intro re
    obtain ⟨-, b2, -⟩ := at_cons (by rw [a3, List.cons_append] : ((longSet n).take (n + 6)).drop (0 + 1) = 0x28#8 :: _)
    rw [parseGroup, b2, except_ok_bind]
    dsimp only
    rw [if_neg (by decide), groupLoop_long _ _ _ _ (by
      intro c hc
      simp only [List.mem_cons, List.mem_append, List.mem_replicate, List.not_mem_nil, or_false] at hc
      rcases hc with rfl | rfl | ⟨-, rfl⟩ | rfl | rfl <;> decide) (by simp) a3 (by simp; omega) (by simp), except_ok_bind]
  have h1 : ((longSet n).take (n + 6)).drop (0 + 1) = 0x28#8 :: 0x29#8 :: (List.replicate n 0x2e#8 ++ [0x5b#8, 0x62#8, 0x5d#8]) := by
    rw [a3]; simp
  obtain ⟨re1, e1, -, c1, d1⟩ := parse_empty_group (re := { buf := [], cap := n + 6 + 128, canRealloc := true, captures := 0 }) rfl (by simp) h1 (n + 4) 0 0 none 0
  obtain ⟨-, -, h2⟩ := at_cons h1
  obtain ⟨-, -, h3⟩ := at_cons h2
  obtain ⟨re2, last2, e2, c2, d2⟩ := parse_dots n (0 + 1 + 1 + 1) 5 re1 0 d1 h3
  have h4 : ((longSet n).take (n + 6)).drop (0 + 1 + 1 + 1 + n) = [0x5b#8, 0x62#8, 0x5d#8] := by
    rw [← List.drop_drop, h3]
    exact List.drop_left' (by simp)
  obtain ⟨f1, f2, h5⟩ := at_cons h4
  have hr : ∃ r, parseGroup (longSet n) (n + 6) (0 + 1 + 1 + 1 + n + 1) re2 = .ok r := by
    obtain ⟨-, p2, h6⟩ := at_cons h5
    obtain ⟨p3, p4, -⟩ := at_cons h6
    rw [parseGroup, p2, except_ok_bind]
    dsimp only
    rw [if_neg (by decide)]
    have hg : groupLoop (longSet n) (n + 6) (n + 6 + 1) (0 + 1 + 1 + 1 + n + 1) [] = .ok (.closed [0x62#8] (0 + 1 + 1 + 1 + n + 1 + 1 + 1)) := by
      have hi : groupItem (longSet n) (n + 6) (0 + 1 + 1 + 1 + n + 1) = .ok ([0x62#8], 0 + 1 + 1 + 1 + n + 1 + 1) := by
        rw [groupItem, p2, except_ok_bind, if_neg (by decide)]
      rw [groupLoop, if_pos (by omega), p2, except_ok_bind, if_neg (by decide), if_neg (by simp), hi, except_ok_bind]
      dsimp only
      rw [if_neg (by simp), groupLoop, if_pos p3, p4, except_ok_bind, if_pos rfl]
      rfl
    rw [hg, except_ok_bind]
    exact ⟨_, rfl⟩
  obtain ⟨r, hr⟩ := hr
  have hset : setLength [0x62#8, 0x5d#8] = some 2 := by decide
  rcases parseGroup_skip (Nat.le_of_eq (longSet_length n).symm) d2 (by rw [h5, hset]; intro m hm; cases hm; omega) hr with ⟨e3, -, k⟩ | ⟨o, re3, rfl, k1, k2, k3, -⟩
  · rw [h5, hset] at k
    cases k
  · have ho : o = n + 6 := by
      rw [h5, hset] at k2
      have h7 : ((longSet n).take (n + 6)).drop o = [] := k2.symm
      rw [ht, List.drop_eq_nil_iff, longSet_length] at h7
      omega
    subst ho
    refine ⟨re3, ?_, ?_⟩
    · rw [compile, parse, if_pos a1, a2, except_ok_bind]
      simp only [BitVec.reduceEq, if_false, if_true]
      rw [hlong, except_ok_bind]
      dsimp only
      have e4 : parse (longSet n) (n + 6) 5 re2 last2 0 none (0 + 1 + 1 + 1 + n) 0 = .ok (.ok (n + 6) re3) := by
        rw [parse, if_pos f1, f2, except_ok_bind]
        simp only [BitVec.reduceEq, if_false, if_true]
        rw [hr, except_ok_bind]
        dsimp only
        rw [if_neg (by omega), parse, if_neg (by omega)]
      have e5 := e1.trans ((congrArg (fun f => parse (longSet n) (n + 6) f re1 0 0 none (0 + 1 + 1 + 1) 0) (by omega : n + 4 + 1 = 5 + n)).trans (e2.trans e4))
      rw [show (List.length ([] : List Byte)) = 0 from rfl]
      rw [show parse (longSet n) (n + 6) (n + 6) { buf := [], cap := n + 6 + 128, canRealloc := true, captures := 0 } 0 0 none (0 + 1) 0 = _ from e5, except_ok_bind]
      simp
    · show re3.captures = 1
      rw [k3, c2, c1]

end Zpl.Regex
