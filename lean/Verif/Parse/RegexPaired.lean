import Verif.Parse.RegexCount

/-!
# The brackets of a regular expression with sets and escapes (code/source/regex.c)

`Verif.Parse.RegexBad` shows for patterns without sets and escapes that the brackets of an accepted pattern pair; here they may have both.  The model is that of
`Verif.Parse.Regex`.  Property C171.
-/

namespace Zpl.Regex

open Zpl.Str

/-! ## Specification -/

/-- How many round brackets are open behind `s` when `d` are open in front of it; the first `k` characters belong to an escape or a set.  `none` when one is closed
that was not opened. -/
def nestingFrom : Nat → List Byte → Nat → Option Nat
  | _, [], d => some d
  | k + 1, _ :: t, d => nestingFrom k t d
  | 0, c :: t, d =>
    if c = 0x5c#8 then nestingFrom (escLength t) t d
    else if c = 0x5b#8 then nestingFrom ((setLength t).getD 0) t d
    else if c = 0x28#8 then nestingFrom 0 t (d + 1)
    else if c = 0x29#8 then if d = 0 then none else nestingFrom 0 t (d - 1)
    else nestingFrom 0 t d

/-- How many round brackets, outside escapes and sets, are open behind `s` when `d` are open in front of it. -/
def nesting (s : List Byte) (d : Nat) : Option Nat := nestingFrom 0 s d

/-! ## The compiler and the brackets -/

theorem nesting_other {c : Byte} (h : c ≠ 0x28#8) (h' : c ≠ 0x29#8) (h1 : c ≠ 0x5c#8) (h2 : c ≠ 0x5b#8) (s : List Byte) (d : Nat) : nesting (c :: s) d = nesting s d := by
  simp [nesting, nestingFrom, h, h', h1, h2]

theorem nesting_open (s : List Byte) (d : Nat) : nesting (0x28#8 :: s) d = nesting s (d + 1) := by
  simp [nesting, nestingFrom]

theorem nesting_close (s : List Byte) (d : Nat) : nesting (0x29#8 :: s) (d + 1) = nesting s d := by
  simp [nesting, nestingFrom]

theorem nestingFrom_drop : ∀ (k : Nat) (s : List Byte) (d : Nat), nestingFrom k s d = nesting (s.drop k) d
  | 0, s, _ => rfl
  | k + 1, [], _ => by simp [nesting, nestingFrom]
  | k + 1, c :: t, d => by rw [nestingFrom, List.drop_succ_cons, nestingFrom_drop k t]

theorem nesting_escape (s : List Byte) (d : Nat) : nesting (0x5c#8 :: s) d = nesting (s.drop (escLength s)) d := by
  rw [← nestingFrom_drop]
  simp [nesting, nestingFrom]

theorem nesting_set (s : List Byte) (d : Nat) : nesting (0x5b#8 :: s) d = nesting (s.drop ((setLength s).getD 0)) d := by
  rw [← nestingFrom_drop]
  simp [nesting, nestingFrom]

theorem runLength_nesting {pat : List Byte} {len : Nat} (hl : len ≤ pat.length) : ∀ (n off k : Nat), off ≤ len → runLength pat len n off = .ok k →
    off + k ≤ len ∧ ∀ d, nesting ((pat.take len).drop off) d = nesting ((pat.take len).drop (off + k)) d
  | 0, _, _, _, h => by simp [runLength] at h
  | n + 1, off, k, ho, h => by
    rw [runLength] at h
    by_cases h1 : off < len
    · obtain ⟨c, -, e, hr⟩ := at_some hl h1
      rw [if_pos h1, hr, except_ok_bind] at h
      split at h
      · cases h; exact ⟨by omega, fun _ => rfl⟩
      · rename_i hm
        match hk : runLength pat len n (off + 1), h with
        | .ok j, h =>
          rw [except_ok_bind] at h
          cases h
          obtain ⟨h2, h3⟩ := runLength_nesting hl n (off + 1) j (by omega) hk
          refine ⟨by omega, fun d => ?_⟩
          rw [e, nesting_other (by rintro rfl; exact hm (by decide)) (by rintro rfl; exact hm (by decide)) (by rintro rfl; exact hm (by decide)) (by rintro rfl; exact hm (by decide)), h3, Nat.add_right_comm, Nat.add_assoc]
        | .error f, h => simp [except_error_bind] at h
    · rw [if_neg h1] at h
      cases h; exact ⟨by omega, fun _ => rfl⟩

/-- What it says about the brackets from `off` on that the compiler has come to `o`: it is at the end, with as many open as it began with, or more if the
pattern ends with a `)`; or it stands behind the `)` that closes its level. -/
def Nested (pat : List Byte) (len off level o : Nat) : Prop :=
  (o = len ∧ ∃ k, (∀ d, nesting ((pat.take len).drop off) d = some (d + k)) ∧ (k = 0 ∨ (pat.take len).getLast? = some 0x29#8)) ∨
  (level ≠ 0 ∧ o ≤ len ∧ ∀ d, nesting ((pat.take len).drop off) (d + 1) = nesting ((pat.take len).drop o) d)

theorem Nested.back {pat : List Byte} {len off off' level o : Nat} (h : Nested pat len off' level o)
    (hd : ∀ d, nesting ((pat.take len).drop off) d = nesting ((pat.take len).drop off') d) : Nested pat len off level o := by
  rcases h with ⟨h1, k, h2, h3⟩ | ⟨h1, h2, h3⟩
  · exact Or.inl ⟨h1, k, fun d => by rw [hd, h2], h3⟩
  · exact Or.inr ⟨h1, h2, fun d => by rw [hd, h3]⟩

theorem parse_nesting {pat : List Byte} {len : Nat} (hl : len ≤ pat.length) (hp : ShortSets (pat.take len)) : ∀ (n : Nat) (re : Re) (last begin_ : Nat)
    (br : Option Nat) (off level o : Nat) (re' : Re), re.canRealloc = true → off ≤ len → parse pat len n re last begin_ br off level = .ok (.ok o re') → Nested pat len off level o
  | 0, _, _, _, _, _, _, _, _, _, _, h => by simp [parse] at h
  | n + 1, re, last, begin_, br, off, level, o, re', hcan, ho, h => by
    rw [parse] at h
    by_cases h1 : off < len
    · obtain ⟨c, hc, e, hr⟩ := at_some hl h1
      have hskip : c ≠ 0x28#8 → c ≠ 0x29#8 → c ≠ 0x5c#8 → c ≠ 0x5b#8 → ∀ d, nesting ((pat.take len).drop off) d = nesting ((pat.take len).drop (off + 1)) d :=
        fun a b a' b' d => by rw [e, nesting_other a b a' b']
      rw [if_pos h1, hr, except_ok_bind] at h
      by_cases c1 : c = 0x5e#8
      · rw [if_pos c1] at h
        match he : emitOps [2] re, h with
        | .ok _ re1, h => exact (parse_nesting hl hp n _ _ _ _ _ _ _ _ ((emitOps_can he).trans hcan) h1 h).back (hskip (by rw [c1]; decide) (by rw [c1]; decide) (by rw [c1]; decide) (by rw [c1]; decide))
      rw [if_neg c1] at h
      by_cases c2 : c = 0x24#8
      · rw [if_pos c2] at h
        match he : emitOps [3] re, h with
        | .ok _ re1, h => exact (parse_nesting hl hp n _ _ _ _ _ _ _ _ ((emitOps_can he).trans hcan) h1 h).back (hskip (by rw [c2]; decide) (by rw [c2]; decide) (by rw [c2]; decide) (by rw [c2]; decide))
      rw [if_neg c2] at h
      by_cases c3 : c = 0x28#8
      · rw [if_pos c3] at h
        have hopen : ∀ d, nesting ((pat.take len).drop off) d = nesting ((pat.take len).drop (off + 1)) (d + 1) := fun d => by rw [e, c3, nesting_open]
        match he : emitOps [0, re.captures] { re with captures := re.captures + 1 }, h with
        | .ok _ re1, h =>
          dsimp only at h
          match hn : parse pat len n re1 re1.buf.length re1.buf.length none (off + 1) (level + 1), h with
          | .ok (.ok o1 re2), h =>
            rw [except_ok_bind] at h
            dsimp only at h
            have hq := parse_nesting hl hp n _ _ _ _ _ _ _ _ ((emitOps_can he).trans hcan) h1 hn
            split at h
            · cases h
            · rename_i hle
              match hb : rd pat (o1 - 1), h with
              | .ok b, h =>
                rw [except_ok_bind] at h
                split at h
                · cases h
                · rename_i hb'
                  match he2 : emitOps [1, re.captures] re2, h with
                  | .ok _ re3, h =>
                    dsimp only at h
                    have ih := parse_nesting hl hp n _ _ _ _ _ _ _ _ ((emitOps_can he2).trans (parse_count hl hp n _ _ _ _ _ _ _ _ ((emitOps_can he).trans hcan) h1 hn).2) (by omega) h
                    rcases hq with ⟨hq1, k, hq2, -⟩ | ⟨-, hq1, hq2⟩
                    · subst hq1
                      have hz : ∀ d, nesting ((pat.take o1).drop o1) d = some d := by
                        intro d
                        rw [List.drop_of_length_le (by rw [List.length_take]; omega)]; rfl
                      have hlast : (pat.take o1).getLast? = some 0x29#8 := last_byte hl (by omega) (by rw [hb, Decidable.of_not_not hb'])
                      rcases ih with ⟨h3, k', h4, h5⟩ | ⟨h3, h4, h5⟩
                      · exact Or.inl ⟨h3, k + 1, fun d => by rw [hopen, hq2]; congr 1; omega, Or.inr hlast⟩
                      · -- at the end, a level that is not the outermost one is not closed
                        exfalso
                        cases n with
                        | zero => simp [parse] at h
                        | succ n =>
                          rw [parse, if_neg (by omega)] at h
                          cases h
                          have := h5 0
                          rw [hz, hz] at this
                          cases this
                    · exact ih.back fun d => by rw [hopen, hq2]
              | .error f, h => simp [except_error_bind] at h
          | .ok (.err e2 re2), h =>
            rw [except_ok_bind] at h
            dsimp only at h
            exfalso
            rw [if_neg (by omega), Nat.add_sub_cancel, hr, except_ok_bind, if_pos (by rw [c3]; decide)] at h
            cases h
          | .error f, h => simp [except_error_bind] at h
      rw [if_neg c3] at h
      by_cases c4 : c = 0x29#8
      · rw [if_pos c4] at h
        dsimp only at h
        split at h
        · cases h
        · rename_i hlv
          cases h
          exact Or.inr ⟨hlv, h1, fun d => by rw [e, c4, nesting_close]⟩
      rw [if_neg c4] at h
      by_cases c0 : c = 0x5b#8
      · rw [if_pos c0] at h
        match hz : parseGroup pat len (off + 1) re, h with
        | .error f, h => simp [except_error_bind] at h
        | .ok r, h =>
          rw [except_ok_bind] at h
          rcases parseGroup_skip hl hcan (fun m hm => hp off _ m (by rw [e, c0]) hm) hz with ⟨e1, rfl, h2⟩ | ⟨o1, re1, rfl, h2, h3, h4, h5⟩
          · dsimp only at h
            refine (parse_nesting hl hp n _ _ _ _ _ _ _ _ hcan h1 h).back fun d => ?_
            rw [e, c0, nesting_set, h2]
            rfl
          · dsimp only at h
            rw [if_neg (by omega)] at h
            refine (parse_nesting hl hp n _ _ _ _ _ _ _ _ h5 h2 h).back fun d => ?_
            rw [e, c0, nesting_set, h3]
      rw [if_neg c0] at h
      by_cases c5 : c = 0x7c#8
      · rw [if_pos c5] at h
        have hs := hskip c3 c4 (by rw [c5]; decide) c0
        match he : branch begin_ re, h with
        | .ok _ re1, h => exact (parse_nesting hl hp n _ _ _ _ _ _ _ _ ((branch_can he).trans hcan) h1 h).back hs
      rw [if_neg c5] at h
      by_cases c6 : c = 0x2e#8
      · rw [if_pos c6] at h
        have hs := hskip c3 c4 (by rw [c6]; decide) c0
        match he : emitOps [6] re, h with
        | .ok _ re1, h => exact (parse_nesting hl hp n _ _ _ _ _ _ _ _ ((emitOps_can he).trans hcan) h1 h).back hs
      rw [if_neg c6] at h
      by_cases c7 : c = 0x2a#8 ∨ c = 0x2b#8
      · rw [if_pos c7] at h
        have hs := hskip c3 c4 (by rcases c7 with c7 | c7 <;> rw [c7] <;> decide) c0
        match hq : quantifiable re last, h with
        | .ok true, h =>
          rw [except_ok_bind, if_pos rfl] at h
          match hz : lazyMark pat len (off + 1), h with
          | .ok lz, h =>
            rw [except_ok_bind] at h
            dsimp only at h
            match hcq : compileQuantifier last (if lz = true then 12#8 else if c = 0x2a#8 then 9#8 else 10#8) re, h with
            | .ok (.ok _ re1), h =>
              rw [except_ok_bind] at h
              dsimp only at h
              cases lz with
              | false => exact (parse_nesting hl hp n _ _ _ _ _ _ _ _ ((quantifier_can hcq).trans hcan) h1 h).back hs
              | true =>
                unfold lazyMark at hz
                split at hz
                · rename_i h2
                  obtain ⟨c', -, e', hr'⟩ := at_some hl h2
                  rw [hr', except_ok_bind] at hz
                  have hc' : c' = 0x3f#8 := by
                    have := Except.ok.inj hz
                    simpa using this
                  refine (parse_nesting hl hp n _ _ _ _ _ _ _ _ ((quantifier_can hcq).trans hcan) h2 h).back fun d => ?_
                  rw [hs, e', nesting_other (by rw [hc']; decide) (by rw [hc']; decide) (by rw [hc']; decide) (by rw [hc']; decide)]
                · cases hz
            | .ok (.err _ _), h => rw [except_ok_bind] at h; cases h
            | .error f, h => simp [except_error_bind] at h
          | .error f, h => simp [except_error_bind] at h
        | .ok false, h => rw [except_ok_bind, if_neg (by decide)] at h; cases h
        | .error f, h => simp [except_error_bind] at h
      rw [if_neg c7] at h
      by_cases c8 : c = 0x3f#8
      · rw [if_pos c8] at h
        have hs := hskip c3 c4 (by rw [c8]; decide) c0
        match hq : quantifiable re last, h with
        | .ok true, h =>
          rw [except_ok_bind, if_pos rfl] at h
          match hcq : compileQuantifier last 13#8 re, h with
          | .ok (.ok _ re1), h =>
            rw [except_ok_bind] at h
            exact (parse_nesting hl hp n _ _ _ _ _ _ _ _ ((quantifier_can hcq).trans hcan) h1 h).back hs
          | .ok (.err _ _), h => rw [except_ok_bind] at h; cases h
          | .error f, h => simp [except_error_bind] at h
        | .ok false, h => rw [except_ok_bind, if_neg (by decide)] at h; cases h
        | .error f, h => simp [except_error_bind] at h
      rw [if_neg c8] at h
      by_cases c9 : c = 0x5c#8
      · rw [if_pos c9] at h
        match hz : escape pat len (off + 1) re, h with
        | .ok (.ok o1 re1), h =>
          rw [except_ok_bind] at h
          dsimp only at h
          obtain ⟨h2, h3, h4⟩ := escape_skip hl h1 hz
          refine (parse_nesting hl hp n _ _ _ _ _ _ _ _ (h4.2.trans hcan) h2 h).back fun d => ?_
          rw [e, c9, nesting_escape, h3]
        | .ok (.err _ _), h => rw [except_ok_bind] at h; cases h
        | .error f, h => simp [except_error_bind] at h
      rw [if_neg c9] at h
      match hz : literal pat len off re, h with
      | .ok (.ok k re1), h =>
        rw [except_ok_bind] at h
        dsimp only at h
        unfold literal at hz
        match hk : runLength pat len (len + 1) off, hz with
        | .ok j, hz =>
          rw [except_ok_bind] at hz
          obtain ⟨h2, h3⟩ := runLength_nesting hl _ _ _ ho hk
          have hj : j = k ∧ re1.canRealloc = re.canRealloc := by
            split at hz
            · cases hz
            · rename_i he1
              split at hz
              · cases hz
              · rename_i he2
                cases hz
                exact ⟨rfl, (emitBuffer_can he2).trans (emitOps_can he1)⟩
          obtain ⟨rfl, hk2⟩ := hj
          exact (parse_nesting hl hp n _ _ _ _ _ _ _ _ (hk2.trans hcan) h2 h).back h3
        | .error f, hz => simp [except_error_bind] at hz
      | .ok (.err _ _), h => rw [except_ok_bind] at h; cases h
      | .error f, h => simp [except_error_bind] at h
    · rw [if_neg h1] at h
      cases h
      refine Or.inl ⟨by omega, 0, fun d => ?_, Or.inl rfl⟩
      rw [List.drop_of_length_le (by rw [List.length_take]; omega)]; rfl

/-! ## Property theorems -/

/-- C171, the part that holds.  When a pattern with sets of at most 256 characters is accepted, no `)` in it, outside sets and escapes, closes a bracket that was not opened; and every `(`
is closed, or else the pattern ends with a `)`.  Missing, and false by `C171_unclosed_accepted`: that every `(` is closed. -/
theorem C171_pairing_partial {pat : List Byte} {len : Nat} {re : Re} (hl : len ≤ pat.length) (hp : ShortSets (pat.take len))
    (h : compile pat len = .ok (.none, re, false)) :
    ∃ k, nesting (pat.take len) 0 = some k ∧ (k = 0 ∨ (pat.take len).getLast? = some 0x29#8) := by
  unfold compile at h
  match hr : parse pat len (len + 1) { buf := [], cap := len + 128, canRealloc := true, captures := 0 } 0 0 none 0 0, h with
  | .ok (.ok o re1), h =>
    rcases parse_nesting hl hp _ _ _ _ _ _ _ _ _ rfl (Nat.zero_le _) hr with ⟨-, k, h1, h2⟩ | ⟨h1, -⟩
    · exact ⟨k, by simpa using h1 0, h2⟩
    · exact absurd rfl h1
  | .ok (.err e re1), h =>
    rw [except_ok_bind] at h
    have h0 : len = 0 := by
      have := (Prod.mk.inj (Prod.mk.inj (Except.ok.inj h)).2).2
      have h0 : 0 = len := by simpa using this
      exact h0.symm
    exact ⟨0, by rw [h0]; rfl, Or.inl rfl⟩
  | .error f, h => simp [except_error_bind] at h

/-- C171, the other way round, is false too: a set with more than 256 characters that begins with a `)` makes the pattern one whose brackets do not pair, although the bracket
belongs to the set. -/
theorem C171_long_set {s t pat : List Byte} {len : Nat} (hs : ∀ c ∈ s, c ≠ 0x5d#8 ∧ c ≠ 0x5c#8) (h256 : 256 ≤ s.length)
    (hp : pat.take len = 0x5b#8 :: 0x29#8 :: (s ++ 0x5d#8 :: t)) : ∃ re, compile pat len = .ok (.mismatchedCaptures, re, true) := by
  have h0 : (pat.take len).drop 0 = 0x5b#8 :: ((0x29#8 :: s) ++ 0x5d#8 :: t) := by rw [List.drop_zero, hp, List.cons_append]
  have hlen : s.length + 1 ≤ len := by
    have := congrArg List.length hp
    rw [List.length_take] at this
    simp at this
    omega
  obtain ⟨a1, a2, a3⟩ := at_cons h0
  obtain ⟨b1, b2, -⟩ := at_cons (by rw [a3, List.cons_append] : (pat.take len).drop (0 + 1) = 0x29#8 :: _)
  have hlong : parseGroup pat len (0 + 1) { buf := [], cap := len + 128, canRealloc := true, captures := 0 } =
      .ok (.err .tooLong { buf := [], cap := len + 128, canRealloc := true, captures := 0 }) := by
    rw [parseGroup, b2, except_ok_bind]
    dsimp only
    rw [if_neg (by decide), groupLoop_long (0x29#8 :: s) _ _ _ (by
      intro c hc
      rcases List.mem_cons.mp hc with rfl | hc
      · decide
      · exact hs c hc) (by simp; omega) a3 (by simp; omega) (by simp), except_ok_bind]
  obtain ⟨m, rfl⟩ : ∃ m, len = m + 1 := ⟨len - 1, by omega⟩
  refine ⟨{ buf := [], cap := m + 1 + 128, canRealloc := true, captures := 0 }, ?_⟩
  rw [compile, parse, if_pos a1, a2, except_ok_bind]
  simp only [BitVec.reduceEq, if_false, if_true]
  rw [hlong, except_ok_bind]
  dsimp only
  rw [parse, if_pos b1, b2, except_ok_bind]
  simp only [BitVec.reduceEq, if_false, if_true]
  rw [except_ok_bind]
  simp [closeBranch]

/-- A `)`, 300 times `x`, in a set. -/
example : ∃ re, compile (0x5b#8 :: 0x29#8 :: (List.replicate 300 0x78#8 ++ [0x5d#8])) 303 = .ok (.mismatchedCaptures, re, true) :=
  C171_long_set (s := List.replicate 300 0x78#8) (t := []) (by intro c hc; rw [(List.mem_replicate.mp hc).2]; decide) (by rw [List.length_replicate]; omega)
    (List.take_of_length_le (by rw [List.length_cons, List.length_cons, List.length_append, List.length_replicate]; exact Nat.le_refl _))

/-- `(\)[)(])` has its brackets paired, and `\()` has not. -/
example : (∃ re, compile [0x28#8, 0x5c#8, 0x29#8, 0x5b#8, 0x29#8, 0x28#8, 0x5d#8, 0x29#8] 8 = .ok (.none, re, false)) ∧
    nesting [0x28#8, 0x5c#8, 0x29#8, 0x5b#8, 0x29#8, 0x28#8, 0x5d#8, 0x29#8] 0 = some 0 ∧ ShortSets [0x28#8, 0x5c#8, 0x29#8, 0x5b#8, 0x29#8, 0x28#8, 0x5d#8, 0x29#8] :=
  ⟨⟨_, rfl⟩, by decide, shortSets (by decide)⟩

example : ¬ (∃ re, compile [0x5c#8, 0x28#8, 0x29#8] 3 = .ok (.none, re, false)) := by
  rintro ⟨re, h⟩
  obtain ⟨k, h1, -⟩ := C171_pairing_partial (by decide) (shortSets (by decide)) h
  have h2 : nesting ([0x5c#8, 0x28#8, 0x29#8].take 3) 0 = none := by decide
  rw [h2] at h1
  cases h1

end Zpl.Regex
