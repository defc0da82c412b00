import Verif.Basic
import Verif.Sort.Sort

/-!
# C strings (code/header/core/string.h:104-453)  -  C29, C30, C31

## Model

A pointer into a block of bytes is the list of the bytes from there to the end of the block; reading past its end is the fault
`oob`.  Pointers are not NULL.  `char` may be signed: the code compares characters for equality or with ASCII constants only, or casts to
`zpl_u8`, so bytes are taken unsigned. -/

namespace Zpl.Str

abbrev Byte := BitVec 8

/-- string.h:174-179 `zpl_strlen`. -/
def strlen : List Byte → Except Fault Nat
  | [] => .error .oob
  | c :: s => if c ≠ 0 then do .ok ((← strlen s) + 1) else .ok 0

/-- string.h:230-233 `zpl_strcmp`. -/
def strcmp : List Byte → List Byte → Except Fault Int
  | c1 :: s1, c2 :: s2 =>
    if c1 ≠ 0 ∧ c1 = c2 then strcmp s1 s2
    else .ok ((c1.toNat : Int) - c2.toNat)
  | _, _ => .error .oob

/-- string.h:302-310 `zpl_strncmp`.  The sign of the result is taken from the *addresses* of the two differing characters: `before` says
that `s1` lies below `s2`. -/
def strncmp (before : Bool) : List Byte → List Byte → Nat → Except Fault Int
  | _, _, 0 => .ok 0
  | c1 :: s1, c2 :: s2, n + 1 =>
    if c1 ≠ c2 then .ok (if before then -1 else 1)
    else if c1 = 0 then .ok 0
    else strncmp before s1 s2 n
  | _, _, _ + 1 => .error .oob

/-- string.h:348-353 `zpl_str_has_prefix`. -/
def hasPrefix : List Byte → List Byte → Except Fault Bool
  | _, [] => .error .oob
  | str, p :: pre =>
    if p ≠ 0 then
      match str with
      | [] => .error .oob
      | c :: str => if c ≠ p then .ok false else hasPrefix str pre
    else .ok true

/-- string.h:355-360 `zpl_str_has_suffix`. -/
def hasSuffix (str suffix : List Byte) : Except Fault Bool := do
  let i ← strlen str
  let j ← strlen suffix
  if j ≤ i then do
    let c ← strcmp (str.drop (i - j)) suffix
    .ok (c == 0)
  else .ok false

/-- string.h:362-368 `zpl_char_first_occurence`: the offset of the result, `none` is NULL. -/
def firstOcc (c : Byte) : List Byte → Except Fault (Option Nat)
  | [] => .error .oob
  | x :: s =>
    if x ≠ c then
      if x = 0 then .ok none
      else do .ok ((← firstOcc c s).map (· + 1))
    else .ok (some 0)

/-- string.h:370-377 `zpl_char_last_occurence`; `k` is the offset of `s`, `result` the last match so far. -/
def lastOccLoop (c : Byte) : List Byte → Nat → Option Nat → Except Fault (Option Nat)
  | [], _, _ => .error .oob
  | x :: s, k, result =>
    let result := if x = c then some k else result
    if x ≠ 0 then lastOccLoop c s (k + 1) result else .ok result

def lastOcc (c : Byte) (s : List Byte) : Except Fault (Option Nat) := lastOccLoop c s 0 none

/-- string.h:262-265 / 280-283: `while (len > 0) { *str++ = '\0'; len--; }` on the bytes `d` from `str` on. -/
def padLoop : Nat → List Byte → Except Fault (List Byte)
  | 0, d => .ok d
  | _ + 1, [] => .error .oob
  | n + 1, _ :: d => do .ok (0 :: (← padLoop n d))

/-- string.h:258-265: copy, then pad.  `dest` and `source` are different blocks. -/
def copyLoop : Nat → List Byte → List Byte → Except Fault (List Byte)
  | 0, d, _ => .ok d
  | _ + 1, _, [] => .error .oob
  | n + 1, d, c :: s =>
    if c ≠ 0 then
      match d with
      | [] => .error .oob
      | _ :: d => do .ok (c :: (← copyLoop n d s))
    else padLoop (n + 1) d

/-- string.h:254-268 `zpl_strncpy`: the bytes from `dest` on, afterwards. -/
def strncpy (dest source : List Byte) (len : Nat) : Except Fault (List Byte) := copyLoop len dest source

/-- string.h:285: how far `source` was advanced. -/
def copied : Nat → List Byte → Nat
  | 0, _ => 0
  | _ + 1, [] => 0
  | n + 1, c :: s => if c ≠ 0 then copied n s + 1 else 0

/-- string.h:270-288 `zpl_strlcpy`. -/
def strlcpy (dest source : List Byte) (len : Nat) : Except Fault (List Byte × Nat) := do
  let d ← copyLoop len dest source
  .ok (d, copied len source)

/-- string.h:104-107 `zpl_char_to_lower`. -/
def toLower (c : Byte) : Byte := if 0x41#8 ≤ c ∧ c ≤ 0x5A#8 then 0x61#8 + (c - 0x41#8) else c

/-- string.h:109-112 `zpl_char_to_upper`. -/
def toUpper (c : Byte) : Byte := if 0x61#8 ≤ c ∧ c ≤ 0x7A#8 then 0x41#8 + (c - 0x61#8) else c

/-- string.h:158-172 `zpl_str_to_lower`, `zpl_str_to_upper`: the bytes from `str` on, afterwards. -/
def mapStr (f : Byte → Byte) : List Byte → Except Fault (List Byte)
  | [] => .error .oob
  | c :: s => if c ≠ 0 then do .ok (f c :: (← mapStr f s)) else .ok (c :: s)

def strToLower (s : List Byte) : Except Fault (List Byte) := mapStr toLower s

def strToUpper (s : List Byte) : Except Fault (List Byte) := mapStr toUpper s

/-- string.h:295-298, the swapping loop of `zpl_strrev`. -/
def revLoop : Nat → Nat → Nat → List Byte → Except Fault (List Byte)
  | 0, _, _, s => .ok s
  | n + 1, a, b, s => do
    let s ← Sort.swp s a b
    revLoop n (a + 1) (b - 1) s

/-- string.h:290-300 `zpl_strrev`: the bytes from `str` on, afterwards. -/
def strrev (s : List Byte) : Except Fault (List Byte) := do
  let len ← strlen s
  revLoop (len / 2) 0 (len - 1) s

/-! ## Specification

A NUL-terminated text is stored as `s ++ 0 :: rest` where `s` has no NUL.  The theorems hold for every `rest`, in particular for the empty
one: then the terminator is the last byte of the block, and a result `.ok` says that nothing after it was touched. -/

/-- A text: no NUL among its characters. -/
def Text (s : List Byte) : Prop := ∀ c ∈ s, c ≠ 0

/-- Dictionary order of byte sequences by their unsigned values. -/
inductive DictLt : List Byte → List Byte → Prop
  | nil (c : Byte) (t : List Byte) : DictLt [] (c :: t)
  | head {c d : Byte} (s t : List Byte) (h : c.toNat < d.toNat) : DictLt (c :: s) (d :: t)
  | tail (c : Byte) {s t : List Byte} (h : DictLt s t) : DictLt (c :: s) (c :: t)

/-! ## Lemmas -/

theorem Text.cons {c : Byte} {s : List Byte} : Text (c :: s) ↔ c ≠ 0 ∧ Text s := by simp [Text]

theorem text_nil : Text [] := by simp [Text]

theorem strlen_ok {s : List Byte} (hs : Text s) (rest : List Byte) : strlen (s ++ 0 :: rest) = .ok s.length := by
  induction s with
  | nil => simp [strlen]
  | cons c s ih =>
    rw [Text.cons] at hs
    simp only [List.cons_append, strlen, ne_eq, hs.1, not_false_eq_true, if_true, ih hs.2, except_ok_bind, List.length_cons]

theorem strcmp_ok {s t : List Byte} (hs : Text s) (ht : Text t) (rs rt : List Byte) :
    ∃ r, strcmp (s ++ 0 :: rs) (t ++ 0 :: rt) = .ok r ∧ (r < 0 ↔ DictLt s t) ∧ (r = 0 ↔ s = t) ∧ (0 < r ↔ DictLt t s) := by
  induction s generalizing t with
  | nil =>
    cases t with
    | nil =>
      refine ⟨0, by simp [strcmp], ⟨by simp, fun h => nomatch h⟩, by simp, ⟨by simp, fun h => nomatch h⟩⟩
    | cons d t =>
      have hd : 0 < d.toNat := by
        have := (Text.cons.1 ht).1
        apply Nat.pos_of_ne_zero; intro h; exact this (BitVec.eq_of_toNat_eq h)
      refine ⟨-(d.toNat : Int), by simp [strcmp], ⟨fun _ => .nil _ _, fun _ => by omega⟩, by simp; omega, ⟨by omega, fun h => nomatch h⟩⟩
  | cons c s ih =>
    have hc := Text.cons.1 hs
    have hcp : 0 < c.toNat := by
      apply Nat.pos_of_ne_zero; intro h; exact hc.1 (BitVec.eq_of_toNat_eq h)
    cases t with
    | nil =>
      refine ⟨(c.toNat : Int), ?_, ⟨by omega, fun h => nomatch h⟩, by simp; omega, ⟨fun _ => .nil _ _, fun _ => by omega⟩⟩
      have : ¬ (c ≠ 0 ∧ c = 0) := fun h => h.1 h.2
      simp only [List.cons_append, List.nil_append, strcmp, this, if_false]
      simp
    | cons d t =>
      have hd := Text.cons.1 ht
      by_cases hcd : c = d
      · subst hcd
        obtain ⟨r, e, h1, h2, h3⟩ := ih hc.2 hd.2
        refine ⟨r, ?_, ?_, by simp [h2], ?_⟩
        · simp only [List.cons_append, strcmp, ne_eq, hc.1, not_false_eq_true, and_self, if_true, e]
        · rw [h1]
          exact ⟨.tail c, fun h => by cases h with | head _ _ h => omega | tail _ h => exact h⟩
        · rw [h3]
          exact ⟨.tail c, fun h => by cases h with | head _ _ h => omega | tail _ h => exact h⟩
      · have hne : c.toNat ≠ d.toNat := fun h => hcd (BitVec.eq_of_toNat_eq h)
        refine ⟨(c.toNat : Int) - d.toNat, by simp [strcmp, hcd], ?_, ?_, ?_⟩
        · constructor
          · intro h; exact .head _ _ (by omega)
          · intro h; cases h with | head _ _ h => omega | tail _ h => exact absurd rfl hcd
        · constructor
          · intro h; omega
          · intro h; simp at h; exact absurd h.1 hcd
        · constructor
          · intro h; exact .head _ _ (by omega)
          · intro h; cases h with | head _ _ h => omega | tail _ h => exact absurd rfl hcd

theorem strncmp_ok (before : Bool) {s t : List Byte} (hs : Text s) (ht : Text t) (rs rt : List Byte) (n : Nat) :
    ∃ r, strncmp before (s ++ 0 :: rs) (t ++ 0 :: rt) n = .ok r ∧ (r = 0 ↔ s.take n = t.take n) := by
  induction n generalizing s t with
  | zero => exact ⟨0, by simp [strncmp], by simp⟩
  | succ n ih =>
    cases s with
    | nil =>
      cases t with
      | nil => exact ⟨0, by simp [strncmp], by simp⟩
      | cons d t =>
        have hd := (Text.cons.1 ht).1
        refine ⟨if before then -1 else 1, ?_, ?_⟩
        · simp only [List.nil_append, List.cons_append, strncmp]
          rw [if_pos (fun h => hd h.symm)]
        · cases before <;> simp
    | cons c s =>
      have hc := Text.cons.1 hs
      cases t with
      | nil =>
        refine ⟨if before then -1 else 1, ?_, ?_⟩
        · simp only [List.nil_append, List.cons_append, strncmp]
          rw [if_pos hc.1]
        · cases before <;> simp
      | cons d t =>
        have hd := Text.cons.1 ht
        by_cases hcd : c = d
        · subst hcd
          obtain ⟨r, e, h⟩ := ih hc.2 hd.2
          refine ⟨r, ?_, by simp [h]⟩
          simp only [List.cons_append, strncmp, ne_eq, not_true_eq_false, if_false, hc.1, e]
        · refine ⟨if before then -1 else 1, ?_, ?_⟩
          · simp only [List.cons_append, strncmp]
            rw [if_pos hcd]
          · cases before <;> simp [hcd]

theorem hasPrefix_ok {s p : List Byte} (hs : Text s) (hp : Text p) (rs rp : List Byte) :
    hasPrefix (s ++ 0 :: rs) (p ++ 0 :: rp) = .ok (decide (p <+: s)) := by
  induction p generalizing s with
  | nil =>
    rw [List.nil_append]
    unfold hasPrefix
    simp
  | cons d p ih =>
    have hd := Text.cons.1 hp
    cases s with
    | nil =>
      simp only [List.nil_append, List.cons_append, hasPrefix]
      rw [if_pos hd.1, if_pos (fun h => hd.1 h.symm)]
      simp
    | cons c s =>
      have hc := Text.cons.1 hs
      simp only [List.cons_append, hasPrefix]
      rw [if_pos hd.1]
      by_cases hcd : c = d
      · subst hcd
        rw [if_neg (by simp), ih hc.2 hd.2]
        simp
      · rw [if_pos hcd]
        have : ¬ (d :: p <+: c :: s) := by
          rw [List.cons_prefix_cons]; exact fun h => hcd h.1.symm
        simp [this]

theorem firstOcc_ok {s : List Byte} (hs : Text s) (rest : List Byte) (c : Byte) :
    ∃ r, firstOcc c (s ++ 0 :: rest) = .ok r ∧
      (∀ i, r = some i ↔ (s ++ [0])[i]? = some c ∧ ∀ j, j < i → (s ++ [0])[j]? ≠ some c) ∧ (r = none ↔ c ∉ s ++ [0]) := by
  induction s with
  | nil =>
    by_cases hc : (0 : Byte) = c
    · subst hc
      refine ⟨some 0, by simp [firstOcc], fun i => ?_, by simp⟩
      cases i with
      | zero => simp
      | succ i => simp
    · refine ⟨none, by rw [List.nil_append, firstOcc, if_pos hc, if_pos rfl], fun i => ?_, by simpa using Ne.symm hc⟩
      cases i with
      | zero => simpa using hc
      | succ i => simp
  | cons x s ih =>
    have hx := Text.cons.1 hs
    obtain ⟨r, e, h1, h2⟩ := ih hx.2
    by_cases hc : x = c
    · subst hc
      refine ⟨some 0, by simp [firstOcc], fun i => ?_, by simp⟩
      cases i with
      | zero => simp
      | succ i =>
        constructor
        · intro h; cases h
        · intro ⟨_, h⟩; exact absurd (by simp) (h 0 (by omega))
    · refine ⟨r.map (· + 1), ?_, fun i => ?_, ?_⟩
      · simp only [List.cons_append, firstOcc]
        rw [if_pos hc, if_neg hx.1, e, except_ok_bind]
      · cases i with
        | zero =>
          constructor
          · intro h; cases r <;> simp at h
          · intro ⟨h, _⟩; simp at h; exact absurd h hc
        | succ i =>
          have : (r.map (· + 1) = some (i + 1)) ↔ r = some i := by cases r <;> simp
          rw [this, h1]
          constructor
          · intro ⟨a, b⟩
            refine ⟨by simpa using a, fun j hj => ?_⟩
            cases j with
            | zero => simpa using hc
            | succ j => simpa using b j (by omega)
          · intro ⟨a, b⟩
            refine ⟨by simpa using a, fun j hj => ?_⟩
            simpa using b (j + 1) (by omega)
      · rw [Option.map_eq_none_iff, h2]
        simp [Ne.symm hc]

theorem lastOccLoop_ok {s : List Byte} (hs : Text s) (rest : List Byte) (c : Byte) (k : Nat) (res : Option Nat) :
    ∃ r, lastOccLoop c (s ++ 0 :: rest) k res = .ok r ∧
      (c ∉ s ++ [0] → r = res) ∧
      (c ∈ s ++ [0] → ∃ i, r = some (k + i) ∧ (s ++ [0])[i]? = some c ∧ ∀ j, i < j → (s ++ [0])[j]? ≠ some c) := by
  induction s generalizing k res with
  | nil =>
    simp only [List.nil_append, lastOccLoop]
    by_cases hc : (0 : Byte) = c
    · subst hc
      refine ⟨some k, by simp, by simp, fun _ => ⟨0, by simp, by simp, fun j hj => ?_⟩⟩
      cases j with
      | zero => omega
      | succ j => simp
    · refine ⟨res, ?_, fun _ => rfl, fun h => ?_⟩
      · rw [if_neg hc]; simp
      · simp at h; exact absurd h.symm hc
  | cons x s ih =>
    have hx := Text.cons.1 hs
    obtain ⟨r, e, h1, h2⟩ := ih hx.2 (k + 1) (if x = c then some k else res)
    refine ⟨r, ?_, fun h => ?_, fun h => ?_⟩
    · simp only [List.cons_append, lastOccLoop]
      rw [if_pos hx.1, e]
    · have h3 : ¬ x = c ∧ c ∉ s ++ [0] := by
        constructor
        · intro e; subst e; simp at h
        · intro h'; apply h; rw [List.cons_append]; exact List.mem_cons_of_mem _ h'
      rw [h1 h3.2, if_neg h3.1]
    · by_cases hm : c ∈ s ++ [0]
      · obtain ⟨i, a, b, d⟩ := h2 hm
        refine ⟨i + 1, by rw [a]; congr 1; omega, by simpa using b, fun j hj => ?_⟩
        cases j with
        | zero => omega
        | succ j => simpa using d j (by omega)
      · have hxc : x = c := by
          rw [List.cons_append, List.mem_cons] at h
          rcases h with h | h
          · exact h.symm
          · exact absurd h hm
        rw [h1 hm, if_pos hxc]
        refine ⟨0, rfl, by simp [hxc], fun j hj => ?_⟩
        cases j with
        | zero => omega
        | succ j =>
          intro hj'
          apply hm
          rw [List.cons_append, List.getElem?_cons_succ] at hj'
          exact List.mem_of_getElem? hj'

theorem padLoop_ok (n : Nat) (d : List Byte) (h : n ≤ d.length) : padLoop n d = .ok (List.replicate n 0 ++ d.drop n) := by
  induction n generalizing d with
  | zero => simp [padLoop]
  | succ n ih =>
    cases d with
    | nil => simp at h
    | cons x d =>
      simp only [padLoop, ih d (by simpa using h), except_ok_bind, List.replicate_succ, List.cons_append, List.drop_succ_cons]

theorem copyLoop_ok {s : List Byte} (hs : Text s) (rest : List Byte) (n : Nat) (d : List Byte) (h : n ≤ d.length) :
    copyLoop n d (s ++ 0 :: rest) = .ok (s.take n ++ List.replicate (n - s.length) 0 ++ d.drop n) := by
  induction n generalizing s d with
  | zero => simp [copyLoop]
  | succ n ih =>
    cases s with
    | nil =>
      simp only [List.nil_append, copyLoop, ne_eq, not_true_eq_false, if_false, padLoop_ok _ _ h]
      simp
    | cons c s =>
      have hc := Text.cons.1 hs
      cases d with
      | nil => simp at h
      | cons x d =>
        simp only [List.cons_append, copyLoop]
        rw [if_pos hc.1, ih hc.2 d (by simpa using h)]
        simp

theorem copied_ok {s : List Byte} (hs : Text s) (rest : List Byte) (n : Nat) : copied n (s ++ 0 :: rest) = min n s.length := by
  induction n generalizing s with
  | zero => simp [copied]
  | succ n ih =>
    cases s with
    | nil => simp [copied]
    | cons c s =>
      have hc := Text.cons.1 hs
      simp only [List.cons_append, copied]
      rw [if_pos hc.1, ih hc.2]
      simp

theorem mapStr_ok (f : Byte → Byte) {s : List Byte} (hs : Text s) (rest : List Byte) :
    mapStr f (s ++ 0 :: rest) = .ok (s.map f ++ 0 :: rest) := by
  induction s with
  | nil => simp [mapStr]
  | cons c s ih =>
    have hc := Text.cons.1 hs
    simp only [List.cons_append, mapStr]
    rw [if_pos hc.1, ih hc.2]
    simp

theorem swp_ends (pre mid post : List Byte) (x y : Byte) :
    Sort.swp (pre ++ (x :: mid ++ [y]) ++ post) pre.length (pre.length + mid.length + 1) = .ok (pre ++ (y :: mid ++ [x]) ++ post) := by
  have e : pre ++ (x :: mid ++ [y]) ++ post = pre ++ x :: (mid ++ y :: post) := by simp
  have e2 : pre ++ (y :: mid ++ [x]) ++ post = pre ++ y :: (mid ++ x :: post) := by simp
  have r1 : rd (pre ++ x :: (mid ++ y :: post)) pre.length = .ok x := by simp [rd]
  have r2 : rd (pre ++ x :: (mid ++ y :: post)) (pre.length + mid.length + 1) = .ok y := by
    unfold rd
    rw [List.getElem?_append_right (by omega)]
    have : pre.length + mid.length + 1 - pre.length = mid.length + 1 := by omega
    simp [this]
  rw [e, e2, Sort.swp, r1, except_ok_bind, r2, except_ok_bind, wr_ok (by simp), except_ok_bind, wr_ok (by simp; omega)]
  congr 1
  rw [List.set_append_right _ _ (by omega), Nat.sub_self, List.set_cons_zero, List.set_append_right _ _ (by omega)]
  have : pre.length + mid.length + 1 - pre.length = mid.length + 1 := by omega
  rw [this, List.set_cons_succ, List.set_append_right _ _ (by omega), Nat.sub_self, List.set_cons_zero]

theorem revLoop_ok (n : Nat) : ∀ (pre mid post : List Byte), mid.length / 2 = n →
    revLoop n pre.length (pre.length + mid.length - 1) (pre ++ mid ++ post) = .ok (pre ++ mid.reverse ++ post) := by
  induction n with
  | zero =>
    intro pre mid post h
    match mid, h with
    | [], _ => simp [revLoop]
    | [a], _ => simp [revLoop]
    | _ :: _ :: _, h => simp at h; omega
  | succ n ih =>
    intro pre mid post h
    obtain ⟨x, m, y, rfl⟩ : ∃ x m y, mid = x :: m ++ [y] := by
      match mid, h with
      | x :: t, h =>
        rcases List.eq_nil_or_concat t with rfl | ⟨m, y, rfl⟩
        · simp at h
        · exact ⟨x, m, y, by simp⟩
    have hlen : (x :: m ++ [y]).length = m.length + 2 := by simp
    rw [hlen] at h ⊢
    have hidx : pre.length + (m.length + 2) - 1 = pre.length + m.length + 1 := by omega
    simp only [revLoop]
    rw [hidx, swp_ends, except_ok_bind]
    have := ih (pre ++ [y]) m ([x] ++ post) (by omega)
    rw [List.length_append, List.length_singleton] at this
    have e1 : pre.length + 1 + m.length - 1 = pre.length + m.length + 1 - 1 := by omega
    have e2 : pre ++ [y] ++ m ++ ([x] ++ post) = pre ++ (y :: m ++ [x]) ++ post := by simp
    rw [e1, e2] at this
    rw [this]
    simp

/-! ## Properties -/

/-- **C29, comparison.** `zpl_strcmp` is negative, zero, positive exactly when the first text is before, equal to, after the second in the
dictionary order of unsigned bytes; it reads nothing after the terminators. -/
theorem C29_strcmp {s t : List Byte} (hs : Text s) (ht : Text t) (rs rt : List Byte) :
    ∃ r, strcmp (s ++ 0 :: rs) (t ++ 0 :: rt) = .ok r ∧ (r < 0 ↔ DictLt s t) ∧ (r = 0 ↔ s = t) ∧ (0 < r ↔ DictLt t s) :=
  strcmp_ok hs ht rs rt

/-- **C29, bounded comparison.** `zpl_strncmp` is zero exactly when the first `n` characters agree. -/
theorem C29_strncmp (before : Bool) {s t : List Byte} (hs : Text s) (ht : Text t) (rs rt : List Byte) (n : Nat) :
    ∃ r, strncmp before (s ++ 0 :: rs) (t ++ 0 :: rt) n = .ok r ∧ (r = 0 ↔ s.take n = t.take n) :=
  strncmp_ok before hs ht rs rt n

/-- Remark on C29: the sign of a nonzero `zpl_strncmp` does not depend on the texts, only on which of them lies lower in memory. -/
theorem C29_strncmp_sign_is_address_order (before : Bool) {s t : List Byte} (hs : Text s) (ht : Text t) (rs rt : List Byte) (n : Nat)
    (hne : s.take n ≠ t.take n) : strncmp before (s ++ 0 :: rs) (t ++ 0 :: rt) n = .ok (if before then -1 else 1) := by
  obtain ⟨r, e, h⟩ := strncmp_ok before hs ht rs rt n
  have hr : r ≠ 0 := fun h0 => hne (h.1 h0)
  have gen : ∀ (a b : List Byte) (n : Nat) (r : Int), strncmp before a b n = .ok r → r ≠ 0 → r = if before then -1 else 1 := by
    intro a
    induction a with
    | nil =>
      intro b n r h h0
      cases n with
      | zero => simp [strncmp] at h; exact absurd h.symm h0
      | succ n => simp [strncmp] at h
    | cons c a ih =>
      intro b n r h h0
      cases n with
      | zero => simp [strncmp] at h; exact absurd h.symm h0
      | succ n =>
        cases b with
        | nil => simp [strncmp] at h
        | cons d b =>
          simp only [strncmp] at h
          split at h
          · cases h; rfl
          · split at h
            · cases h; exact absurd rfl h0
            · exact ih _ _ _ h h0
  rw [e, gen _ _ _ _ e hr]

/-- **C29, prefix and suffix.** -/
theorem C29_prefix_suffix {s t : List Byte} (hs : Text s) (ht : Text t) (rs rt : List Byte) :
    hasPrefix (s ++ 0 :: rs) (t ++ 0 :: rt) = .ok (decide (t <+: s)) ∧
    hasSuffix (s ++ 0 :: rs) (t ++ 0 :: rt) = .ok (decide (t <:+ s)) := by
  refine ⟨hasPrefix_ok hs ht rs rt, ?_⟩
  simp only [hasSuffix, strlen_ok hs, strlen_ok ht, except_ok_bind]
  by_cases hl : t.length ≤ s.length
  · rw [if_pos hl]
    have e : (s ++ 0 :: rs).drop (s.length - t.length) = s.drop (s.length - t.length) ++ 0 :: rs := by
      rw [List.drop_append_of_le_length (by omega)]
    have hd : Text (s.drop (s.length - t.length)) := fun c hc => hs c (List.mem_of_mem_drop hc)
    obtain ⟨r, e2, -, h, -⟩ := strcmp_ok hd ht rs rt
    rw [e, e2, except_ok_bind]
    congr 1
    rw [Bool.eq_iff_iff]
    simp only [beq_iff_eq, decide_eq_true_eq]
    rw [h, List.suffix_iff_eq_drop]
    exact eq_comm
  · rw [if_neg hl]
    have : ¬ t <:+ s := fun h => hl h.length_le
    simp [this]

/-- **C29, occurrence.** `zpl_char_first_occurence` / `zpl_char_last_occurence` return the least / greatest index holding the character (the terminator
counts as a character), and NULL exactly when there is none. -/
theorem C29_occurrence {s : List Byte} (hs : Text s) (rest : List Byte) (c : Byte) :
    (∃ r, firstOcc c (s ++ 0 :: rest) = .ok r ∧
      (∀ i, r = some i ↔ (s ++ [0])[i]? = some c ∧ ∀ j, j < i → (s ++ [0])[j]? ≠ some c) ∧ (r = none ↔ c ∉ s ++ [0])) ∧
    (∃ r, lastOcc c (s ++ 0 :: rest) = .ok r ∧
      (∀ i, r = some i ↔ (s ++ [0])[i]? = some c ∧ ∀ j, i < j → (s ++ [0])[j]? ≠ some c) ∧ (r = none ↔ c ∉ s ++ [0])) := by
  refine ⟨firstOcc_ok hs rest c, ?_⟩
  obtain ⟨r, e, h1, h2⟩ := lastOccLoop_ok hs rest c 0 none
  refine ⟨r, e, fun i => ?_, ?_⟩
  · constructor
    · intro hr
      have hm : c ∈ s ++ [0] := by
        apply Classical.byContradiction
        intro hn; rw [h1 hn] at hr; cases hr
      obtain ⟨k, a, b, d⟩ := h2 hm
      rw [hr] at a
      have : i = k := by have := Option.some.inj a; omega
      subst this
      exact ⟨b, d⟩
    · intro ⟨a, b⟩
      obtain ⟨k, a', b', d'⟩ := h2 (List.mem_of_getElem? a)
      have : k = i := by
        rcases Nat.lt_trichotomy k i with h | h | h
        · exact absurd a (d' i h)
        · exact h
        · exact absurd b' (b k h)
      rw [a', this]; congr 1; omega
  · constructor
    · intro hr hm
      obtain ⟨k, a, -⟩ := h2 hm
      rw [hr] at a; cases a
    · exact h1

/-- **C30, `zpl_strncpy`.** Exactly the `n` bytes at `dest` are written: the text cut to `n` characters, padded with NULs. -/
theorem C30_strncpy {s : List Byte} (hs : Text s) (rest : List Byte) (n : Nat) (dest : List Byte) (hd : n ≤ dest.length) :
    strncpy dest (s ++ 0 :: rest) n = .ok (s.take n ++ List.replicate (n - s.length) 0 ++ dest.drop n) :=
  copyLoop_ok hs rest n dest hd

/-- **C30, `zpl_strlcpy`, partial.** Exactly the `n` bytes at `dest` are written, with the longest prefix of the text that fits in `n` bytes, and the
number of characters copied is returned.  If the text is shorter than `n` the result is NUL-terminated.  Missing: termination when the
text has `n` or more characters; the code does not terminate then (`C30_strlcpy_not_terminated`). -/
theorem C30_strlcpy_partial {s : List Byte} (hs : Text s) (rest : List Byte) (n : Nat) (dest : List Byte) (hd : n ≤ dest.length) :
    ∃ out, strlcpy dest (s ++ 0 :: rest) n = .ok (out, min n s.length) ∧ out.drop n = dest.drop n ∧ out.length = dest.length ∧
      out.take (min n s.length) = s.take n ∧ (s.length < n → out[s.length]? = some 0) := by
  refine ⟨s.take n ++ List.replicate (n - s.length) 0 ++ dest.drop n, ?_, ?_, ?_, ?_, fun h => ?_⟩
  · simp only [strlcpy, copyLoop_ok hs rest n dest hd, copied_ok hs, except_ok_bind]
  · rw [List.drop_append_of_le_length (by simp; omega)]
    rw [List.drop_eq_nil_of_le (by simp; omega)]; simp
  · simp; omega
  · rw [List.append_assoc, List.take_append_of_le_length (by simp), List.take_take]
    rw [List.take_eq_take_iff]; omega
  · rw [List.append_assoc, List.getElem?_append_right (by simp; omega), List.getElem?_append_left (by simp; omega)]
    rw [List.getElem?_replicate, if_pos (by simp; omega)]

/-- Deviation: when the text has `n` or more characters, `zpl_strlcpy` fills all `n` bytes with characters and writes no terminator. -/
theorem C30_strlcpy_not_terminated {s : List Byte} (hs : Text s) (rest : List Byte) (n : Nat) (dest : List Byte) (hd : n ≤ dest.length)
    (hn : n ≤ s.length) : ∃ out, strlcpy dest (s ++ 0 :: rest) n = .ok (out, n) ∧ out.drop n = dest.drop n ∧ ∀ i, i < n → out[i]? ≠ some 0 := by
  refine ⟨s.take n ++ dest.drop n, ?_, ?_, fun i hi h => ?_⟩
  · simp only [strlcpy, copyLoop_ok hs rest n dest hd, copied_ok hs, except_ok_bind]
    have : n - s.length = 0 := by omega
    simp [this, hn]
  · rw [List.drop_append_of_le_length (by simp; omega), List.drop_eq_nil_of_le (by simp; omega)]; simp
  · rw [List.getElem?_append_left (by simp; omega)] at h
    exact hs 0 (List.mem_of_mem_take (List.mem_of_getElem? h)) rfl

/-- What `zpl_char_to_lower` / `zpl_char_to_upper` do to an ASCII letter: only the other case of it changes. -/
theorem C31_case_of_letters (c : Byte) :
    (toLower c).toNat = (if 65 ≤ c.toNat ∧ c.toNat ≤ 90 then c.toNat + 32 else c.toNat) ∧
    (toUpper c).toNat = (if 97 ≤ c.toNat ∧ c.toNat ≤ 122 then c.toNat - 32 else c.toNat) := by
  revert c; decide +kernel

/-- **C31.** `zpl_strrev` reverses the text and `zpl_str_to_lower` / `zpl_str_to_upper` map each character, in place: the terminator and everything
behind it stay as they are. -/
theorem C31_transforms {s : List Byte} (hs : Text s) (rest : List Byte) :
    strrev (s ++ 0 :: rest) = .ok (s.reverse ++ 0 :: rest) ∧
    strToLower (s ++ 0 :: rest) = .ok (s.map toLower ++ 0 :: rest) ∧
    strToUpper (s ++ 0 :: rest) = .ok (s.map toUpper ++ 0 :: rest) := by
  refine ⟨?_, mapStr_ok _ hs _, mapStr_ok _ hs _⟩
  simp only [strrev, strlen_ok hs, except_ok_bind]
  have := revLoop_ok (s.length / 2) [] s (0 :: rest) rfl
  simpa using this

/-- **C31, involution.** Reversing twice gives back the text. -/
theorem C31_reverse_twice {s : List Byte} (hs : Text s) (rest : List Byte) :
    (strrev (s ++ 0 :: rest) >>= strrev) = .ok (s ++ 0 :: rest) := by
  have hr : Text s.reverse := fun c hc => hs c (by simpa using hc)
  rw [(C31_transforms hs rest).1, except_ok_bind, (C31_transforms hr rest).1, List.reverse_reverse]

/-! ## The hypotheses are met -/

/-- "ab" and "abc" -/
example : Text [97#8, 98#8] ∧ Text [97#8, 98#8, 99#8] ∧ strcmp [97#8, 98#8, 0#8] [97#8, 98#8, 99#8, 0#8] = .ok (-99) ∧
    hasSuffix [97#8, 98#8, 99#8, 0#8] [98#8, 99#8, 0#8] = .ok true ∧ lastOcc 97#8 [97#8, 98#8, 97#8, 0#8] = .ok (some 2) ∧
    strncpy [9#8, 9#8, 9#8, 9#8] [97#8, 98#8, 0#8] 3 = .ok [97#8, 98#8, 0#8, 9#8] ∧
    strrev [97#8, 98#8, 99#8, 0#8] = .ok [99#8, 98#8, 97#8, 0#8] := by
  refine ⟨by unfold Text; decide, by unfold Text; decide, by decide, by decide, by decide, by decide, by decide⟩

end Zpl.Str
