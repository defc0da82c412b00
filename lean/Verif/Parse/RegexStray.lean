import Verif.Parse.RegexPaired

/-!
# Square brackets that close nothing (code/source/regex.c)

`Regex.C84_bracket_diverges`: at a `]` that closes no set the compiler goes on for ever.  Here: so it does not come to an end with such a pattern, whatever else the pattern holds.
The model is that of `Verif.Parse.Regex`.  Property C171.
-/

namespace Zpl.Regex

open Zpl.Str

/-! ## Specification -/

/-- How many `]` close nothing in a text of which the first `k` characters belong to an escape or a set. -/
def straysFrom : Nat → List Byte → Nat
  | _, [] => 0
  | k + 1, _ :: t => straysFrom k t
  | 0, c :: t =>
    if c = 0x5c#8 then straysFrom (escLength t) t
    else if c = 0x5b#8 then straysFrom ((setLength t).getD 0) t
    else (if c = 0x5d#8 then 1 else 0) + straysFrom 0 t

/-- How many `]` in a text belong neither to an escape nor to a set. -/
def strays (s : List Byte) : Nat := straysFrom 0 s

/-! ## The compiler -/

theorem strays_other {c : Byte} (h : c ≠ 0x5d#8) (h' : c ≠ 0x5c#8) (h'' : c ≠ 0x5b#8) (s : List Byte) : strays (c :: s) = strays s := by
  simp [strays, straysFrom, h, h', h'']

theorem straysFrom_drop : ∀ (k : Nat) (s : List Byte), straysFrom k s = strays (s.drop k)
  | 0, s => rfl
  | k + 1, [] => by simp [strays, straysFrom]
  | k + 1, c :: t => by rw [straysFrom, List.drop_succ_cons, straysFrom_drop k t]

theorem strays_escape (s : List Byte) : strays (0x5c#8 :: s) = strays (s.drop (escLength s)) := by
  rw [← straysFrom_drop]
  simp [strays, straysFrom]

theorem strays_set (s : List Byte) : strays (0x5b#8 :: s) = strays (s.drop ((setLength s).getD 0)) := by
  rw [← straysFrom_drop]
  simp [strays, straysFrom]

/-- At a `]` the compiler does not come to a good end. -/
theorem parse_stray {pat : List Byte} {len off : Nat} (hr : rd pat off = .ok 0x5d#8) (h1 : off < len) : ∀ (n : Nat) (re : Re) (last begin_ : Nat)
    (br : Option Nat) (level o : Nat) (re' : Re), parse pat len n re last begin_ br off level ≠ .ok (.ok o re')
  | 0, _, _, _, _, _, _, _ => by simp [parse]
  | n + 1, re, last, begin_, br, level, o, re' => by
    intro h
    rw [parse, if_pos h1, hr, except_ok_bind] at h
    simp only [BitVec.reduceEq, if_false, or_self] at h
    have hk : runLength pat len (len + 1) off = .ok 0 := by
      rw [runLength, if_pos h1, hr, except_ok_bind, if_pos (by decide)]
    unfold literal at h
    rw [hk, except_ok_bind] at h
    split at h
    · rw [except_ok_bind] at h
      cases h
    · split at h
      · rw [except_ok_bind] at h
        cases h
      · rw [except_ok_bind] at h
        exact parse_stray hr h1 n _ _ _ _ _ _ _ h

/-- From `off` to `o` no `]` is passed that closes nothing. -/
def Passed (pat : List Byte) (len off o : Nat) (re' : Re) : Prop :=
  strays ((pat.take len).drop o) = strays ((pat.take len).drop off) ∧ re'.canRealloc = true

theorem Passed.back {pat : List Byte} {len off off' o : Nat} {re' : Re} (h : Passed pat len off' o re')
    (hd : strays ((pat.take len).drop off) = strays ((pat.take len).drop off')) : Passed pat len off o re' :=
  ⟨h.1.trans hd.symm, h.2⟩

theorem runLength_strays {pat : List Byte} {len : Nat} (hl : len ≤ pat.length) : ∀ (n off k : Nat), off ≤ len → runLength pat len n off = .ok k →
    off + k ≤ len ∧ strays ((pat.take len).drop off) = strays ((pat.take len).drop (off + k))
  | 0, _, _, _, h => by simp [runLength] at h
  | n + 1, off, k, ho, h => by
    rw [runLength] at h
    by_cases h1 : off < len
    · obtain ⟨c, -, e, hr⟩ := at_some hl h1
      rw [if_pos h1, hr, except_ok_bind] at h
      split at h
      · cases h; exact ⟨by omega, rfl⟩
      · rename_i hm
        match hk : runLength pat len n (off + 1), h with
        | .ok j, h =>
          rw [except_ok_bind] at h
          cases h
          obtain ⟨h2, h3⟩ := runLength_strays hl n (off + 1) j (by omega) hk
          refine ⟨by omega, ?_⟩
          rw [e, strays_other (by rintro rfl; exact hm (by decide)) (by rintro rfl; exact hm (by decide)) (by rintro rfl; exact hm (by decide)), h3, Nat.add_right_comm, Nat.add_assoc]
        | .error f, h => simp [except_error_bind] at h
    · rw [if_neg h1] at h
      cases h; exact ⟨by omega, rfl⟩

theorem parse_strays {pat : List Byte} {len : Nat} (hl : len ≤ pat.length) (hp : ShortSets (pat.take len)) : ∀ (n : Nat) (re : Re) (last begin_ : Nat)
    (br : Option Nat) (off level o : Nat) (re' : Re), re.canRealloc = true → off ≤ len → parse pat len n re last begin_ br off level = .ok (.ok o re') → Passed pat len off o re'
  | 0, _, _, _, _, _, _, _, _, _, _, h => by simp [parse] at h
  | n + 1, re, last, begin_, br, off, level, o, re', hcan, ho, h => by
    by_cases h1 : off < len
    · obtain ⟨c, hc, e, hr⟩ := at_some hl h1
      have hskip : c ≠ 0x5d#8 → c ≠ 0x5c#8 → c ≠ 0x5b#8 → strays ((pat.take len).drop off) = strays ((pat.take len).drop (off + 1)) :=
        fun a b d => by rw [e, strays_other a b d]
      have cx : c ≠ 0x5d#8 := by
        rintro rfl
        exact absurd h (parse_stray hr h1 _ _ _ _ _ _ _ _)
      rw [parse] at h
      rw [if_pos h1, hr, except_ok_bind] at h
      by_cases c1 : c = 0x5e#8
      · rw [if_pos c1] at h
        match he : emitOps [2] re, h with
        | .ok _ re1, h => exact (parse_strays hl hp n _ _ _ _ _ _ _ _ ((emitOps_can he).trans hcan) h1 h).back (hskip (by rw [c1]; decide) (by rw [c1]; decide) (by rw [c1]; decide))
      rw [if_neg c1] at h
      by_cases c2 : c = 0x24#8
      · rw [if_pos c2] at h
        match he : emitOps [3] re, h with
        | .ok _ re1, h => exact (parse_strays hl hp n _ _ _ _ _ _ _ _ ((emitOps_can he).trans hcan) h1 h).back (hskip (by rw [c2]; decide) (by rw [c2]; decide) (by rw [c2]; decide))
      rw [if_neg c2] at h
      by_cases c3 : c = 0x28#8
      · rw [if_pos c3] at h
        have hopen := hskip (by rw [c3]; decide) (by rw [c3]; decide) (by rw [c3]; decide)
        match he : emitOps [0, re.captures] { re with captures := re.captures + 1 }, h with
        | .ok _ re1, h =>
          dsimp only at h
          match hn : parse pat len n re1 re1.buf.length re1.buf.length none (off + 1) (level + 1), h with
          | .ok (.ok o1 re2), h =>
            rw [except_ok_bind] at h
            dsimp only at h
            have hq := parse_strays hl hp n _ _ _ _ _ _ _ _ ((emitOps_can he).trans hcan) h1 hn
            split at h
            · cases h
            · rename_i hle
              match hb : rd pat (o1 - 1), h with
              | .ok b, h =>
                rw [except_ok_bind] at h
                split at h
                · cases h
                · rename_i hb'
                  match he2 : emitOps [1, re.captures] re2, h with
                  | .ok _ re3, h =>
                    dsimp only at h
                    have ih := parse_strays hl hp n _ _ _ _ _ _ _ _ ((emitOps_can he2).trans hq.2) (by omega) h
                    unfold Passed at hq ih ⊢
                    rw [Nat.succ_eq_add_one] at hq
                    exact ⟨by omega, ih.2⟩
              | .error f, h => simp [except_error_bind] at h
          | .ok (.err e2 re2), h =>
            rw [except_ok_bind] at h
            dsimp only at h
            exfalso
            rw [if_neg (by omega), Nat.add_sub_cancel, hr, except_ok_bind, if_pos (by rw [c3]; decide)] at h
            cases h
          | .error f, h => simp [except_error_bind] at h
      rw [if_neg c3] at h
      by_cases c4 : c = 0x29#8
      · rw [if_pos c4] at h
        dsimp only at h
        split at h
        · cases h
        · rename_i hlv
          cases h
          unfold Passed
          rw [hskip (by rw [c4]; decide) (by rw [c4]; decide) (by rw [c4]; decide), closeBranch_can]
          exact ⟨rfl, hcan⟩
      rw [if_neg c4] at h
      by_cases c0 : c = 0x5b#8
      · rw [if_pos c0] at h
        match hz : parseGroup pat len (off + 1) re, h with
        | .error f, h => simp [except_error_bind] at h
        | .ok r, h =>
          rw [except_ok_bind] at h
          rcases parseGroup_skip hl hcan (fun m hm => hp off _ m (by rw [e, c0]) hm) hz with ⟨e1, rfl, h2⟩ | ⟨o1, re1, rfl, h2, h3, h4, h5⟩
          · dsimp only at h
            refine (parse_strays hl hp n _ _ _ _ _ _ _ _ hcan h1 h).back ?_
            rw [e, c0, strays_set, h2]
            rfl
          · dsimp only at h
            rw [if_neg (by omega)] at h
            refine (parse_strays hl hp n _ _ _ _ _ _ _ _ h5 h2 h).back ?_
            rw [e, c0, strays_set, h3]
      rw [if_neg c0] at h
      by_cases c5 : c = 0x7c#8
      · rw [if_pos c5] at h
        have hs := hskip cx (by rw [c5]; decide) c0
        match he : branch begin_ re, h with
        | .ok _ re1, h => exact (parse_strays hl hp n _ _ _ _ _ _ _ _ ((branch_can he).trans hcan) h1 h).back hs
      rw [if_neg c5] at h
      by_cases c6 : c = 0x2e#8
      · rw [if_pos c6] at h
        have hs := hskip cx (by rw [c6]; decide) c0
        match he : emitOps [6] re, h with
        | .ok _ re1, h => exact (parse_strays hl hp n _ _ _ _ _ _ _ _ ((emitOps_can he).trans hcan) h1 h).back hs
      rw [if_neg c6] at h
      by_cases c7 : c = 0x2a#8 ∨ c = 0x2b#8
      · rw [if_pos c7] at h
        have hs := hskip cx (by rcases c7 with c7 | c7 <;> rw [c7] <;> decide) c0
        match hq : quantifiable re last, h with
        | .ok true, h =>
          rw [except_ok_bind, if_pos rfl] at h
          match hz : lazyMark pat len (off + 1), h with
          | .ok lz, h =>
            rw [except_ok_bind] at h
            dsimp only at h
            match hcq : compileQuantifier last (if lz = true then 12#8 else if c = 0x2a#8 then 9#8 else 10#8) re, h with
            | .ok (.ok _ re1), h =>
              rw [except_ok_bind] at h
              dsimp only at h
              cases lz with
              | false => exact (parse_strays hl hp n _ _ _ _ _ _ _ _ ((quantifier_can hcq).trans hcan) h1 h).back hs
              | true =>
                unfold lazyMark at hz
                split at hz
                · rename_i h2
                  obtain ⟨c', -, e', hr'⟩ := at_some hl h2
                  rw [hr', except_ok_bind] at hz
                  have hc' : c' = 0x3f#8 := by
                    have := Except.ok.inj hz
                    simpa using this
                  refine (parse_strays hl hp n _ _ _ _ _ _ _ _ ((quantifier_can hcq).trans hcan) h2 h).back ?_
                  rw [hs, e', strays_other (by rw [hc']; decide) (by rw [hc']; decide) (by rw [hc']; decide)]
                · cases hz
            | .ok (.err _ _), h => rw [except_ok_bind] at h; cases h
            | .error f, h => simp [except_error_bind] at h
          | .error f, h => simp [except_error_bind] at h
        | .ok false, h => rw [except_ok_bind, if_neg (by decide)] at h; cases h
        | .error f, h => simp [except_error_bind] at h
      rw [if_neg c7] at h
      by_cases c8 : c = 0x3f#8
      · rw [if_pos c8] at h
        have hs := hskip cx (by rw [c8]; decide) c0
        match hq : quantifiable re last, h with
        | .ok true, h =>
          rw [except_ok_bind, if_pos rfl] at h
          match hcq : compileQuantifier last 13#8 re, h with
          | .ok (.ok _ re1), h =>
            rw [except_ok_bind] at h
            exact (parse_strays hl hp n _ _ _ _ _ _ _ _ ((quantifier_can hcq).trans hcan) h1 h).back hs
          | .ok (.err _ _), h => rw [except_ok_bind] at h; cases h
          | .error f, h => simp [except_error_bind] at h
        | .ok false, h => rw [except_ok_bind, if_neg (by decide)] at h; cases h
        | .error f, h => simp [except_error_bind] at h
      rw [if_neg c8] at h
      by_cases c9 : c = 0x5c#8
      · rw [if_pos c9] at h
        match hz : escape pat len (off + 1) re, h with
        | .ok (.ok o1 re1), h =>
          rw [except_ok_bind] at h
          dsimp only at h
          obtain ⟨h2, h3, h4⟩ := escape_skip hl h1 hz
          refine (parse_strays hl hp n _ _ _ _ _ _ _ _ (h4.2.trans hcan) h2 h).back ?_
          rw [e, c9, strays_escape, h3]
        | .ok (.err _ _), h => rw [except_ok_bind] at h; cases h
        | .error f, h => simp [except_error_bind] at h
      rw [if_neg c9] at h
      match hz : literal pat len off re, h with
      | .ok (.ok k re1), h =>
        rw [except_ok_bind] at h
        dsimp only at h
        unfold literal at hz
        match hk : runLength pat len (len + 1) off, hz with
        | .ok j, hz =>
          rw [except_ok_bind] at hz
          obtain ⟨h2, h3⟩ := runLength_strays hl _ _ _ ho hk
          have hj : j = k ∧ re1.captures = re.captures ∧ re1.canRealloc = re.canRealloc := by
            split at hz
            · cases hz
            · rename_i he1
              split at hz
              · cases hz
              · rename_i he2
                cases hz
                exact ⟨rfl, (emitBuffer_captures he2).trans (emitOps_captures he1), (emitBuffer_can he2).trans (emitOps_can he1)⟩
          obtain ⟨rfl, hk2⟩ := hj
          exact (parse_strays hl hp n _ _ _ _ _ _ _ _ (hk2.2.trans hcan) h2 h).back h3
        | .error f, hz => simp [except_error_bind] at hz
      | .ok (.err _ _), h => rw [except_ok_bind] at h; cases h
      | .error f, h => simp [except_error_bind] at h
    · rw [parse, if_neg h1] at h
      cases h
      exact ⟨rfl, hcan⟩

/-! ## Property theorems -/

/-- C171: in a pattern that is accepted, every `]` belongs to a set or an escape.  As everywhere, sets have at most 256 characters. -/
theorem C171_no_stray {pat : List Byte} {len : Nat} {re : Re} (hl : len ≤ pat.length) (hp : ShortSets (pat.take len))
    (h : compile pat len = .ok (.none, re, false)) : strays (pat.take len) = 0 := by
  unfold compile at h
  match hr : parse pat len (len + 1) { buf := [], cap := len + 128, canRealloc := true, captures := 0 } 0 0 none 0 0, h with
  | .ok (.ok o re1), h =>
    have hg := (parse_strays hl hp _ _ _ _ _ _ _ _ _ rfl (Nat.zero_le _) hr).1
    rw [except_ok_bind] at h
    have ho : o = len := by
      have := (Prod.mk.inj (Prod.mk.inj (Except.ok.inj h)).2).2
      simpa using this
    subst ho
    rw [List.drop_of_length_le (by rw [List.length_take]; omega), List.drop_zero] at hg
    exact hg.symm
  | .ok (.err e re1), h =>
    rw [except_ok_bind] at h
    have h0 : len = 0 := by
      have := (Prod.mk.inj (Prod.mk.inj (Except.ok.inj h)).2).2
      have h0 : 0 = len := by simpa using this
      exact h0.symm
    subst h0
    rfl
  | .error f, h => simp [except_error_bind] at h

/-- `[a]\]` is accepted and has none; `(a])` has one, and is not accepted. -/
example : (∃ re, compile [0x5b#8, 0x61#8, 0x5d#8, 0x5c#8, 0x5d#8] 5 = .ok (.none, re, false)) ∧ strays [0x5b#8, 0x61#8, 0x5d#8, 0x5c#8, 0x5d#8] = 0 ∧
    ShortSets [0x5b#8, 0x61#8, 0x5d#8, 0x5c#8, 0x5d#8] := ⟨⟨_, rfl⟩, by decide, shortSets (by decide)⟩

example : ¬ (∃ re, compile [0x28#8, 0x61#8, 0x5d#8, 0x29#8] 4 = .ok (.none, re, false)) := by
  rintro ⟨re, h⟩
  have h1 := C171_no_stray (by decide) (shortSets (by decide)) h
  have h2 : strays ([0x28#8, 0x61#8, 0x5d#8, 0x29#8].take 4) = 1 := by decide
  rw [h2] at h1
  cases h1

end Zpl.Regex
