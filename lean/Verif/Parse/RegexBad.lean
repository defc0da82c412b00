import Verif.Parse.Regex

/-!
# Malformed regular expressions (code/source/regex.c)

Which patterns `zpl_re_compile` refuses: brackets that do not pair, repetition marks with nothing to repeat, sets that are not closed.  The model is that of
`Verif.Parse.Regex`.  Property C171.
-/

namespace Zpl.Regex

open Zpl.Str

/-! ## Specification -/

/-- How many round brackets are open behind `s` when `d` are open in front of it; `none` when one is closed that was not opened. -/
def depth : List Byte → Nat → Option Nat
  | [], d => some d
  | c :: s, d =>
    if c = 0x28#8 then depth s (d + 1)
    else if c = 0x29#8 then if d = 0 then none else depth s (d - 1)
    else depth s d

/-- No sets and no escapes, where a round bracket stands for itself. -/
def Plain (s : List Byte) : Prop := ∀ c ∈ s, c ≠ 0x5b#8 ∧ c ≠ 0x5c#8

/-! ## The compiler and the brackets -/

theorem depth_other {c : Byte} (h : c ≠ 0x28#8) (h' : c ≠ 0x29#8) (s : List Byte) (d : Nat) : depth (c :: s) d = depth s d := by
  rw [depth, if_neg h, if_neg h']

theorem at_some {pat : List Byte} {len off : Nat} (hl : len ≤ pat.length) (h : off < len) :
    ∃ c, c ∈ pat.take len ∧ (pat.take len).drop off = c :: (pat.take len).drop (off + 1) ∧ rd pat off = .ok c := by
  have hlt : off < (pat.take len).length := by rw [List.length_take]; omega
  have e := List.drop_eq_getElem_cons hlt
  refine ⟨(pat.take len)[off], List.getElem_mem _, e, ?_⟩
  exact (at_cons e).2.1

theorem runLength_depth {pat : List Byte} {len : Nat} (hl : len ≤ pat.length) : ∀ (n off k : Nat), off ≤ len → runLength pat len n off = .ok k →
    off + k ≤ len ∧ ∀ d, depth ((pat.take len).drop off) d = depth ((pat.take len).drop (off + k)) d
  | 0, _, _, _, h => by simp [runLength] at h
  | n + 1, off, k, ho, h => by
    rw [runLength] at h
    by_cases h1 : off < len
    · obtain ⟨c, -, e, hr⟩ := at_some hl h1
      rw [if_pos h1, hr, except_ok_bind] at h
      split at h
      · cases h; exact ⟨by omega, fun _ => rfl⟩
      · rename_i hm
        match hk : runLength pat len n (off + 1), h with
        | .ok j, h =>
          rw [except_ok_bind] at h
          cases h
          obtain ⟨h2, h3⟩ := runLength_depth hl n (off + 1) j (by omega) hk
          refine ⟨by omega, fun d => ?_⟩
          rw [e, depth_other (by rintro rfl; exact hm (by decide)) (by rintro rfl; exact hm (by decide)), h3, Nat.add_right_comm, Nat.add_assoc]
        | .error f, h => simp [except_error_bind] at h
    · rw [if_neg h1] at h
      cases h; exact ⟨by omega, fun _ => rfl⟩

/-- What it says about the brackets from `off` on that the compiler has come to `o`: it is at the end, with as many open as it began with, or more if the
pattern ends with a `)`; or it stands behind the `)` that closes its level. -/
def Paired (pat : List Byte) (len off level o : Nat) : Prop :=
  (o = len ∧ ∃ k, (∀ d, depth ((pat.take len).drop off) d = some (d + k)) ∧ (k = 0 ∨ (pat.take len).getLast? = some 0x29#8)) ∨
  (level ≠ 0 ∧ o ≤ len ∧ ∀ d, depth ((pat.take len).drop off) (d + 1) = depth ((pat.take len).drop o) d)

theorem Paired.back {pat : List Byte} {len off off' level o : Nat} (h : Paired pat len off' level o)
    (hd : ∀ d, depth ((pat.take len).drop off) d = depth ((pat.take len).drop off') d) : Paired pat len off level o := by
  rcases h with ⟨h1, k, h2, h3⟩ | ⟨h1, h2, h3⟩
  · exact Or.inl ⟨h1, k, fun d => by rw [hd, h2], h3⟩
  · exact Or.inr ⟨h1, h2, fun d => by rw [hd, h3]⟩

theorem last_byte {pat : List Byte} {len : Nat} (hl : len ≤ pat.length) (h0 : 0 < len) {c : Byte} (h : rd pat (len - 1) = .ok c) :
    (pat.take len).getLast? = some c := by
  rw [List.getLast?_eq_getElem?, List.length_take, Nat.min_eq_left hl, List.getElem?_take_of_lt (by omega)]
  unfold rd at h
  split at h
  · rename_i x hx; cases h; exact hx
  · cases h

theorem parse_depth {pat : List Byte} {len : Nat} (hl : len ≤ pat.length) (hp : Plain (pat.take len)) : ∀ (n : Nat) (re : Re) (last begin_ : Nat)
    (br : Option Nat) (off level o : Nat) (re' : Re), off ≤ len → parse pat len n re last begin_ br off level = .ok (.ok o re') → Paired pat len off level o
  | 0, _, _, _, _, _, _, _, _, _, h => by simp [parse] at h
  | n + 1, re, last, begin_, br, off, level, o, re', ho, h => by
    rw [parse] at h
    by_cases h1 : off < len
    · obtain ⟨c, hc, e, hr⟩ := at_some hl h1
      have hskip : c ≠ 0x28#8 → c ≠ 0x29#8 → ∀ d, depth ((pat.take len).drop off) d = depth ((pat.take len).drop (off + 1)) d :=
        fun a b d => by rw [e, depth_other a b]
      rw [if_pos h1, hr, except_ok_bind] at h
      by_cases c1 : c = 0x5e#8
      · rw [if_pos c1] at h
        match he : emitOps [2] re, h with
        | .ok _ re1, h => exact (parse_depth hl hp n _ _ _ _ _ _ _ _ h1 h).back (hskip (by rw [c1]; decide) (by rw [c1]; decide))
      rw [if_neg c1] at h
      by_cases c2 : c = 0x24#8
      · rw [if_pos c2] at h
        match he : emitOps [3] re, h with
        | .ok _ re1, h => exact (parse_depth hl hp n _ _ _ _ _ _ _ _ h1 h).back (hskip (by rw [c2]; decide) (by rw [c2]; decide))
      rw [if_neg c2] at h
      by_cases c3 : c = 0x28#8
      · rw [if_pos c3] at h
        have hopen : ∀ d, depth ((pat.take len).drop off) d = depth ((pat.take len).drop (off + 1)) (d + 1) := fun d => by rw [e, depth, if_pos c3]
        match he : emitOps [0, re.captures] { re with captures := re.captures + 1 }, h with
        | .ok _ re1, h =>
          dsimp only at h
          match hn : parse pat len n re1 re1.buf.length re1.buf.length none (off + 1) (level + 1), h with
          | .ok (.ok o1 re2), h =>
            rw [except_ok_bind] at h
            dsimp only at h
            have hq := parse_depth hl hp n _ _ _ _ _ _ _ _ h1 hn
            split at h
            · cases h
            · rename_i hle
              match hb : rd pat (o1 - 1), h with
              | .ok b, h =>
                rw [except_ok_bind] at h
                split at h
                · cases h
                · rename_i hb'
                  match he2 : emitOps [1, re.captures] re2, h with
                  | .ok _ re3, h =>
                    dsimp only at h
                    have ih := parse_depth hl hp n _ _ _ _ _ _ _ _ (by omega) h
                    rcases hq with ⟨hq1, k, hq2, -⟩ | ⟨-, hq1, hq2⟩
                    · subst hq1
                      have hz : ∀ d, depth ((pat.take o1).drop o1) d = some d := by
                        intro d
                        rw [List.drop_of_length_le (by rw [List.length_take]; omega)]; rfl
                      have hlast : (pat.take o1).getLast? = some 0x29#8 := last_byte hl (by omega) (by rw [hb, Decidable.of_not_not hb'])
                      rcases ih with ⟨h3, k', h4, h5⟩ | ⟨h3, h4, h5⟩
                      · exact Or.inl ⟨h3, k + 1, fun d => by rw [hopen, hq2]; congr 1; omega, Or.inr hlast⟩
                      · -- at the end, a level that is not the outermost one is not closed
                        exfalso
                        cases n with
                        | zero => simp [parse] at h
                        | succ n =>
                          rw [parse, if_neg (by omega)] at h
                          cases h
                          have := h5 0
                          rw [hz, hz] at this
                          cases this
                    · exact ih.back fun d => by rw [hopen, hq2]
              | .error f, h => simp [except_error_bind] at h
          | .ok (.err e2 re2), h =>
            rw [except_ok_bind] at h
            dsimp only at h
            exfalso
            rw [if_neg (by omega), Nat.add_sub_cancel, hr, except_ok_bind, if_pos (by rw [c3]; decide)] at h
            cases h
          | .error f, h => simp [except_error_bind] at h
      rw [if_neg c3] at h
      by_cases c4 : c = 0x29#8
      · rw [if_pos c4] at h
        dsimp only at h
        split at h
        · cases h
        · rename_i hlv
          cases h
          exact Or.inr ⟨hlv, h1, fun d => by rw [e, depth, if_neg c3, if_pos c4, if_neg (by omega), Nat.add_sub_cancel]⟩
      rw [if_neg c4, if_neg (hp c hc).1] at h
      have hs := hskip c3 c4
      by_cases c5 : c = 0x7c#8
      · rw [if_pos c5] at h
        match he : branch begin_ re, h with
        | .ok _ re1, h => exact (parse_depth hl hp n _ _ _ _ _ _ _ _ h1 h).back hs
      rw [if_neg c5] at h
      by_cases c6 : c = 0x2e#8
      · rw [if_pos c6] at h
        match he : emitOps [6] re, h with
        | .ok _ re1, h => exact (parse_depth hl hp n _ _ _ _ _ _ _ _ h1 h).back hs
      rw [if_neg c6] at h
      by_cases c7 : c = 0x2a#8 ∨ c = 0x2b#8
      · rw [if_pos c7] at h
        match hq : quantifiable re last, h with
        | .ok true, h =>
          rw [except_ok_bind, if_pos rfl] at h
          match hz : lazyMark pat len (off + 1), h with
          | .ok lz, h =>
            rw [except_ok_bind] at h
            dsimp only at h
            match hcq : compileQuantifier last (if lz = true then 12#8 else if c = 0x2a#8 then 9#8 else 10#8) re, h with
            | .ok (.ok _ re1), h =>
              rw [except_ok_bind] at h
              dsimp only at h
              cases lz with
              | false => exact (parse_depth hl hp n _ _ _ _ _ _ _ _ h1 h).back hs
              | true =>
                unfold lazyMark at hz
                split at hz
                · rename_i h2
                  obtain ⟨c', -, e', hr'⟩ := at_some hl h2
                  rw [hr', except_ok_bind] at hz
                  have hc' : c' = 0x3f#8 := by
                    have := Except.ok.inj hz
                    simpa using this
                  refine (parse_depth hl hp n _ _ _ _ _ _ _ _ h2 h).back fun d => ?_
                  rw [hs, e', depth_other (by rw [hc']; decide) (by rw [hc']; decide)]
                · cases hz
            | .ok (.err _ _), h => rw [except_ok_bind] at h; cases h
            | .error f, h => simp [except_error_bind] at h
          | .error f, h => simp [except_error_bind] at h
        | .ok false, h => rw [except_ok_bind, if_neg (by decide)] at h; cases h
        | .error f, h => simp [except_error_bind] at h
      rw [if_neg c7] at h
      by_cases c8 : c = 0x3f#8
      · rw [if_pos c8] at h
        match hq : quantifiable re last, h with
        | .ok true, h =>
          rw [except_ok_bind, if_pos rfl] at h
          match hcq : compileQuantifier last 13#8 re, h with
          | .ok (.ok _ re1), h =>
            rw [except_ok_bind] at h
            exact (parse_depth hl hp n _ _ _ _ _ _ _ _ h1 h).back hs
          | .ok (.err _ _), h => rw [except_ok_bind] at h; cases h
          | .error f, h => simp [except_error_bind] at h
        | .ok false, h => rw [except_ok_bind, if_neg (by decide)] at h; cases h
        | .error f, h => simp [except_error_bind] at h
      rw [if_neg c8, if_neg (hp c hc).2] at h
      match hz : literal pat len off re, h with
      | .ok (.ok k re1), h =>
        rw [except_ok_bind] at h
        dsimp only at h
        unfold literal at hz
        match hk : runLength pat len (len + 1) off, hz with
        | .ok j, hz =>
          rw [except_ok_bind] at hz
          obtain ⟨h2, h3⟩ := runLength_depth hl _ _ _ ho hk
          have hj : j = k := by
            split at hz
            · cases hz
            · split at hz
              · cases hz
              · cases hz; rfl
          subst hj
          exact (parse_depth hl hp n _ _ _ _ _ _ _ _ h2 h).back h3
        | .error f, hz => simp [except_error_bind] at hz
      | .ok (.err _ _), h => rw [except_ok_bind] at h; cases h
      | .error f, h => simp [except_error_bind] at h
    · rw [if_neg h1] at h
      cases h
      refine Or.inl ⟨by omega, 0, fun d => ?_, Or.inl rfl⟩
      rw [List.drop_of_length_le (by rw [List.length_take]; omega)]; rfl

/-! ## Property theorems -/

/-- C171, the part that holds.  When a pattern without sets and escapes is accepted, no `)` in it closes a bracket that was not opened; and every `(` is
closed, or else the pattern ends with a `)`.  Missing, and false by `C171_unclosed_accepted`: that every `(` is closed. -/
theorem C171_brackets_partial {pat : List Byte} {len : Nat} {re : Re} (hl : len ≤ pat.length) (hp : Plain (pat.take len))
    (h : compile pat len = .ok (.none, re, false)) :
    ∃ k, depth (pat.take len) 0 = some k ∧ (k = 0 ∨ (pat.take len).getLast? = some 0x29#8) := by
  unfold compile at h
  match hr : parse pat len (len + 1) { buf := [], cap := len + 128, canRealloc := true, captures := 0 } 0 0 none 0 0, h with
  | .ok (.ok o re1), h =>
    rcases parse_depth hl hp _ _ _ _ _ _ _ _ _ (Nat.zero_le _) hr with ⟨-, k, h1, h2⟩ | ⟨h1, -⟩
    · exact ⟨k, by simpa using h1 0, h2⟩
    · exact absurd rfl h1
  | .ok (.err e re1), h =>
    rw [except_ok_bind] at h
    have h0 : len = 0 := by
      have := (Prod.mk.inj (Prod.mk.inj (Except.ok.inj h)).2).2
      have h0 : 0 = len := by simpa using this
      exact h0.symm
    exact ⟨0, by rw [h0]; rfl, Or.inl rfl⟩
  | .error f, h => simp [except_error_bind] at h

/-- C171 is false in full: behind `((`, one `)` is enough, whatever stands between; `((q)` compiles to the same operations as `((q))`. -/
theorem C171_unclosed_accepted {q : Pat} {pat pat' : List Byte} {len len' : Nat} (hl : len ≤ pat.length) (hl' : len' ≤ pat'.length)
    (hp : pat.take len = 0x28#8 :: 0x28#8 :: (q.spell ++ [0x29#8])) (hp' : pat'.take len' = 0x28#8 :: 0x28#8 :: (q.spell ++ [0x29#8, 0x29#8]))
    (hok : q.Ok false) (hplus : q.hasPlus = false) (hg : q.groups + 2 ≤ 256) :
    ∃ re re', compile pat len = .ok (.none, re, false) ∧ compile pat' len' = .ok (.none, re', false) ∧ re.buf = re'.buf ∧ re.captures = re'.captures := by
  obtain ⟨re', c', b', k'⟩ := compile_ok (p := .group (.group q .nil) .nil) hl' (by rw [hp']; simp [Pat.spell]) ⟨⟨hok, trivial⟩, trivial⟩
    (by simp [Pat.groups]; omega) (by simp [Pat.hasPlus, hplus])
  have hlen : q.spell.length + 3 = len := by
    have := congrArg List.length hp
    rw [List.length_take, Nat.min_eq_left hl] at this
    simp at this; omega
  have h : (pat.take len).drop 0 = 0x28#8 :: (0x28#8 :: (q.spell ++ [0x29#8])) := by simpa using hp
  obtain ⟨h1, h2, h3⟩ := at_cons h
  obtain ⟨re1, e1, g1⟩ := emitOps_ok (vs := [0, ((0 : Nat) : Int)]) (re := { buf := [], cap := len + 128, canRealloc := true, captures := 0 + 1 }) rfl (by simp)
  have k1 : re1.captures = 1 := g1.caps
  have hsp : (pat.take len).drop (0 + 1) = (Pat.group q .nil).spell ++ [] := by rw [h3]; simp [Pat.spell]
  obtain ⟨re2, e2, g2⟩ := parse_ok hl (.group q .nil) false len re1 re1.buf.length re1.buf.length (0 + 1) (0 + 1) [] ⟨hok, trivial⟩ (Or.inl rfl) hsp
    (by omega) g1.can (by rw [k1]; simp [Pat.groups]; omega) (by simp [Pat.hasPlus, hplus])
  have hend : 0 + 1 + (Pat.group q .nil).spell.length + past [] = len := by simp [Pat.spell, past]; omega
  rw [hend] at e2
  obtain ⟨re3, e3, g3⟩ := emitOps_ok (vs := [1, ((0 : Nat) : Int)]) g2.can (by simp)
  have hz : (pat.take len).drop (len - 1) = 0x29#8 :: [] := by
    rw [hp, show len - 1 = (0x28#8 :: 0x28#8 :: q.spell).length by simp; omega]
    rw [show 0x28#8 :: 0x28#8 :: (q.spell ++ [0x29#8]) = (0x28#8 :: 0x28#8 :: q.spell) ++ [0x29#8] by simp]
    exact List.drop_left
  obtain ⟨-, hr, -⟩ := at_cons hz
  obtain ⟨m, rfl⟩ : ∃ m, len = m + 1 := ⟨len - 1, by omega⟩
  refine ⟨re3, re', ?_, c', ?_, ?_⟩
  · rw [compile, parse, if_pos h1, h2, except_ok_bind]
    simp only [BitVec.reduceEq, if_false, if_true]
    rw [e1]
    dsimp only
    rw [e2, except_ok_bind]
    dsimp only
    rw [if_neg (by omega), hr, except_ok_bind, if_neg (by simp), e3]
    dsimp only
    rw [parse, if_neg (by omega), except_ok_bind]
    simp
  · rw [b', g3.buf, g2.buf, g1.buf, k1]
    simp [Pat.flat, opsOf, Instr.ops]
  · rw [k', g3.caps, g2.caps, k1]
    simp [Pat.groups]

/-- C171: a pattern that begins with a repetition mark, or with an anchor and then a repetition mark, is refused, whatever follows. -/
theorem C171_nothing_to_repeat {pat t : List Byte} {len : Nat} {c : Byte} (hc : c = 0x2a#8 ∨ c = 0x2b#8 ∨ c = 0x3f#8)
    (hp : pat.take len = c :: t ∨ pat.take len = 0x5e#8 :: c :: t ∨ pat.take len = 0x24#8 :: c :: t) :
    ∃ re, compile pat len = .ok (.invalidQuantifier, re, true) := by
  have key : ∀ (n off : Nat) (re : Re), (pat.take len).drop off = c :: t → quantifiable re 0 = .ok false →
      parse pat len (n + 1) re 0 0 none off 0 = .ok (.err .invalidQuantifier re) := by
    intro n off re h hq
    obtain ⟨h1, h2, -⟩ := at_cons h
    rw [parse, if_pos h1, h2, except_ok_bind]
    rcases hc with rfl | rfl | rfl <;> simp only [BitVec.reduceEq, if_false, if_true, or_self, or_true, true_or] <;> rw [hq, except_ok_bind] <;> rfl
  rcases hp with h | h | h
  · have h' : (pat.take len).drop 0 = c :: t := by simpa using h
    obtain ⟨h1, -, -⟩ := at_cons h'
    refine ⟨{ buf := [], cap := len + 128, canRealloc := true, captures := 0 }, ?_⟩
    rw [compile, key len 0 _ h' rfl, except_ok_bind]
    simp; omega
  · have h' : (pat.take len).drop 0 = 0x5e#8 :: c :: t := by simpa using h
    obtain ⟨h1, h2, h3⟩ := at_cons h'
    obtain ⟨re1, e1, g1⟩ := emitOps_ok (vs := [2]) (re := { buf := [], cap := len + 128, canRealloc := true, captures := 0 }) rfl (by simp)
    obtain ⟨m, rfl⟩ : ∃ m, len = m + 1 := ⟨len - 1, by omega⟩
    refine ⟨re1, ?_⟩
    rw [compile, parse, if_pos h1, h2, except_ok_bind]
    simp only [BitVec.reduceEq, if_false, if_true]
    rw [e1]
    dsimp only
    rw [key m _ re1 h3 (by rw [quantifiable, g1.buf]; rfl), except_ok_bind]
    simp
  · have h' : (pat.take len).drop 0 = 0x24#8 :: c :: t := by simpa using h
    obtain ⟨h1, h2, h3⟩ := at_cons h'
    obtain ⟨re1, e1, g1⟩ := emitOps_ok (vs := [3]) (re := { buf := [], cap := len + 128, canRealloc := true, captures := 0 }) rfl (by simp)
    obtain ⟨m, rfl⟩ : ∃ m, len = m + 1 := ⟨len - 1, by omega⟩
    refine ⟨re1, ?_⟩
    rw [compile, parse, if_pos h1, h2, except_ok_bind]
    simp only [BitVec.reduceEq, if_false, if_true]
    rw [e1]
    dsimp only
    rw [key m _ re1 h3 (by rw [quantifiable, g1.buf]; rfl), except_ok_bind]
    simp

/-- C171 is false in full: a set that is not closed is no error.  Its `[` is dropped, and `[s` compiles to the same operations as `s`. -/
theorem C171_set_unclosed {s pat pat' : List Byte} {len len' : Nat} (hs : Ordinary s) (h0 : s ≠ []) (h127 : s.length ≤ 127) (hl : len ≤ pat.length)
    (hl' : len' ≤ pat'.length) (hp : pat.take len = 0x5b#8 :: s) (hp' : pat'.take len' = s) :
    ∃ re re', compile pat len = .ok (.none, re, false) ∧ compile pat' len' = .ok (.none, re', false) ∧ re.buf = re'.buf := by
  obtain ⟨re', c', b', -⟩ := compile_ok (p := .lit s .nil) hl' (by rw [hp']; simp [Pat.spell]) ⟨rfl, h0, hs, by simpa [Pat.extra] using h127, trivial⟩
    (by simp [Pat.groups]) (by simp [Pat.hasPlus])
  have h : (pat.take len).drop 0 = 0x5b#8 :: s := by simpa using hp
  obtain ⟨h1, h2, h3⟩ := at_cons h
  have hlen := at_length hl h3
  have hgrp : ∀ (n off : Nat) (t buf : List Byte), (pat.take len).drop off = t → Ordinary t → buf.length + t.length ≤ 256 → t.length < n →
      groupLoop pat len n off buf = .ok .unclosed := by
    intro n
    induction n with
    | zero => intro off t buf _ _ _ hn; omega
    | succ n ih =>
      intro off t buf ht ho hb hn
      cases t with
      | nil => rw [groupLoop, if_neg (at_nil hl ht)]
      | cons c t =>
        obtain ⟨g1, g2, g3⟩ := at_cons ht
        have hm := (ho c (by simp)).2
        simp only [metaChars, List.mem_cons, List.not_mem_nil, or_false, not_or] at hm
        simp only [List.length_cons] at hb hn
        rw [groupLoop, if_pos g1, g2, except_ok_bind, if_neg (by simp [hm]), if_neg (by omega), groupItem, g2, except_ok_bind, if_neg (by simp [hm]), except_ok_bind]
        dsimp only
        rw [if_neg (by simp; omega)]
        exact ih _ t _ g3 (fun x hx => ho x (by simp [hx])) (by simp; omega) (by omega)
  have hpg : ∀ re, parseGroup pat len (0 + 1) re = .ok (.err .mismatchedBlocks re) := by
    intro re
    obtain ⟨c, t, rfl⟩ := List.exists_cons_of_ne_nil h0
    obtain ⟨-, g2, -⟩ := at_cons h3
    have hm := (hs c (by simp)).2
    simp only [metaChars, List.mem_cons, List.not_mem_nil, or_false, not_or] at hm
    rw [parseGroup, g2, except_ok_bind]
    simp only [hm, decide_false, Bool.false_eq_true, if_false]
    rw [hgrp _ _ _ _ h3 hs (by simp only [List.length_nil]; omega) (by omega)]
    rfl
  obtain ⟨m, rfl⟩ : ∃ m, len = m + 1 := ⟨len - 1, by omega⟩
  have hs0 : 0 < s.length := List.length_pos_iff.2 h0
  obtain ⟨re1, g1, e1⟩ := parse_lit (n := m) (off := 0 + 1) (last := 0) (begin_ := 0) (level := 0) (b := none)
    (re := { buf := [], cap := m + 1 + 128, canRealloc := true, captures := 0 }) (t := []) hl rfl hs h0 (by omega) (by intro d hd; simp at hd) (by simpa using h3)
  refine ⟨re1, re', ?_, c', ?_⟩
  · rw [compile, parse, if_pos h1, h2, except_ok_bind]
    simp only [BitVec.reduceEq, if_false, if_true]
    rw [hpg, except_ok_bind]
    dsimp only [List.length_nil]
    rw [e1, show m = (m - 1) + 1 by omega, parse, if_neg (by omega), except_ok_bind]
    simp; omega
  · rw [g1.buf, b']
    simp [Pat.flat, opsOf, Instr.ops]

/-- C171: a group that begins with a repetition mark is refused with the error for brackets, whatever follows. -/
theorem C171_group_refused {pat t : List Byte} {len : Nat} {c : Byte} (hc : c = 0x2a#8 ∨ c = 0x2b#8 ∨ c = 0x3f#8)
    (hp : pat.take len = 0x28#8 :: c :: t) : ∃ re, compile pat len = .ok (.mismatchedCaptures, re, true) := by
  have h : (pat.take len).drop 0 = 0x28#8 :: c :: t := by simpa using hp
  obtain ⟨h1, h2, h3⟩ := at_cons h
  obtain ⟨g1, g2, -⟩ := at_cons h3
  obtain ⟨re1, e1, -⟩ := emitOps_ok (vs := [0, ((0 : Nat) : Int)]) (re := { buf := [], cap := len + 128, canRealloc := true, captures := 0 + 1 }) rfl (by simp)
  obtain ⟨m, rfl⟩ : ∃ m, len = m + 1 := ⟨len - 1, by omega⟩
  have hq : quantifiable re1 re1.buf.length = .ok false := by rw [quantifiable, if_pos (Nat.le_refl _)]
  have key : parse pat (m + 1) (m + 1) re1 re1.buf.length re1.buf.length none (0 + 1) (0 + 1) = .ok (.err .invalidQuantifier re1) := by
    rw [parse, if_pos g1, g2, except_ok_bind]
    rcases hc with rfl | rfl | rfl <;> simp only [BitVec.reduceEq, if_false, if_true, or_self, or_true, true_or] <;> rw [hq, except_ok_bind] <;> rfl
  refine ⟨re1, ?_⟩
  rw [compile, parse, if_pos h1, h2, except_ok_bind]
  simp only [BitVec.reduceEq, if_false, if_true]
  rw [e1]
  dsimp only
  rw [key, except_ok_bind]
  dsimp only
  rw [if_neg (by omega), Nat.add_sub_cancel, h2, except_ok_bind, if_pos (by decide), except_ok_bind]
  simp

/-- C171: a group cannot be repeated: a repetition mark behind it is refused. -/
theorem C171_group_not_repeated {q : Pat} {pat t : List Byte} {len : Nat} {c : Byte} (hl : len ≤ pat.length) (hc : c = 0x2a#8 ∨ c = 0x2b#8 ∨ c = 0x3f#8)
    (hp : pat.take len = 0x28#8 :: (q.spell ++ 0x29#8 :: c :: t)) (hok : q.Ok false) (hplus : q.hasPlus = false) (hg : q.groups + 1 ≤ 256) :
    ∃ re, compile pat len = .ok (.invalidQuantifier, re, true) := by
  have h : (pat.take len).drop 0 = 0x28#8 :: (q.spell ++ 0x29#8 :: c :: t) := by simpa using hp
  have hlen := at_length hl h
  simp only [List.length_cons, List.length_append] at hlen
  obtain ⟨h1, h2, h3⟩ := at_cons h
  obtain ⟨re1, e1, g1⟩ := emitOps_ok (vs := [0, ((0 : Nat) : Int)]) (re := { buf := [], cap := len + 128, canRealloc := true, captures := 0 + 1 }) rfl (by simp)
  have k1 : re1.captures = 1 := g1.caps
  obtain ⟨re2, e2, g2⟩ := parse_ok hl q false len re1 re1.buf.length re1.buf.length (0 + 1) (0 + 1) _ hok (Or.inr ⟨by omega, _, rfl⟩) h3
    (by omega) g1.can (by rw [k1]; omega) (by simp [hplus])
  simp only [past, List.cons_ne_nil, if_false] at e2
  obtain ⟨re3, e3, g3⟩ := emitOps_ok (vs := [1, ((0 : Nat) : Int)]) g2.can (by simp)
  obtain ⟨-, h5, h6⟩ := at_cons (at_append h3)
  obtain ⟨h7, h8, -⟩ := at_cons h6
  have hq : quantifiable re3 0 = .ok false := by
    rw [quantifiable, g3.buf, g2.buf, g1.buf]
    rfl
  obtain ⟨m, rfl⟩ : ∃ m, len = m + 1 := ⟨len - 1, by omega⟩
  refine ⟨re3, ?_⟩
  rw [compile, parse, if_pos h1, h2, except_ok_bind]
  simp only [BitVec.reduceEq, if_false, if_true]
  rw [e1]
  dsimp only
  rw [e2, except_ok_bind]
  dsimp only
  rw [if_neg (by omega), Nat.add_sub_cancel, h5, except_ok_bind, if_neg (by simp), e3]
  dsimp only
  have key : parse pat (m + 1) (m + 1) re3 0 0 none (0 + 1 + q.spell.length + 1) 0 = .ok (.err .invalidQuantifier re3) := by
    rw [parse, if_pos h7, h8, except_ok_bind]
    rcases hc with rfl | rfl | rfl <;> simp only [BitVec.reduceEq, if_false, if_true, or_self, or_true, true_or] <;> rw [hq, except_ok_bind] <;> rfl
  simp only [List.length_nil]
  rw [key, except_ok_bind]
  simp

/-- C171 is false in full: a repetition mark behind a `$` is put on what stands in front of the `$`.  If that is a run of two characters or more, the anchor is lost, and the last character of
the run is left where an operation should be. -/
theorem C171_repeated_anchor {s pat : List Byte} {len : Nat} {x : Byte} (hs : Ordinary (s ++ [x])) (h0 : s ≠ []) (h126 : s.length ≤ 126) (hl : len ≤ pat.length)
    (hp : pat.take len = s ++ [x] ++ [0x24#8, 0x2a#8]) :
    ∃ re, compile pat len = .ok (.none, re, false) ∧ re.buf = 4 :: BitVec.ofNat 8 s.length :: s ++ [x] ++ [9, 4, 1, 3] := by
  have h : (pat.take len).drop 0 = (s ++ [x]) ++ [0x24#8, 0x2a#8] := by simpa using hp
  have hlen := at_length hl h
  simp only [List.length_cons, List.length_append, List.length_nil] at hlen
  have hs0 : 0 < s.length := List.length_pos_iff.2 h0
  obtain ⟨m, rfl⟩ : ∃ m, len = m + 1 + 1 + 1 := ⟨len - 3, by omega⟩
  obtain ⟨re1, g1, e1⟩ := parse_lit (n := m + 1 + 1 + 1) (off := 0) (last := 0) (begin_ := 0) (level := 0) (b := none)
    (re := { buf := [], cap := m + 1 + 1 + 1 + 128, canRealloc := true, captures := 0 }) hl rfl hs (by simp) (by simp; omega) (by intro d hd; simp at hd; subst hd; decide) h
  obtain ⟨h1, h2, h3⟩ := at_cons (at_append h)
  obtain ⟨h4, h5, h6⟩ := at_cons h3
  obtain ⟨re2, e2, g2⟩ := emitOps_ok (vs := [3]) g1.can (by simp)
  have b2 : re2.buf = 4 :: BitVec.ofNat 8 (s.length + 1) :: (s ++ [x] ++ [3]) := by
    rw [g2.buf, g1.buf]; simp
  have hq : quantifiable re2 0 = .ok true := by
    rw [quantifiable, b2]; rfl
  have hz : lazyMark pat (m + 1 + 1 + 1) (0 + (s ++ [x]).length + 1 + 1) = .ok false := by
    rw [lazyMark, if_neg (by simp; omega)]
  have hn : (BitVec.ofNat 8 (s.length + 1)).toInt = (s.length + 1 : Nat) := toInt_small (by omega)
  have hsp : splits 0 re2 = .ok true := by
    rw [splits, b2]
    simp only [rd, List.getElem?_cons_zero, except_ok_bind, if_true, List.getElem?_cons_succ, Nat.zero_add]
    rw [hn]
    simp; omega
  have hb : (re2.buf.set 1 (BitVec.ofNat 8 (s.length + 1) - 1#8)).dropLast = 4 :: BitVec.ofNat 8 s.length :: s ++ [x] := by
    rw [b2]
    have : BitVec.ofNat 8 (s.length + 1) - 1#8 = BitVec.ofNat 8 s.length := by
      rw [BitVec.ofNat_add]
      exact BitVec.add_sub_cancel _ _
    simp only [List.set_cons_succ, List.set_cons_zero, this]
    rw [show (4 :: BitVec.ofNat 8 s.length :: (s ++ [x] ++ [3])) = (4 :: BitVec.ofNat 8 s.length :: s ++ [x]) ++ [3] by simp]
    exact List.dropLast_concat
  obtain ⟨re3, e3, g3⟩ := emitOps_ok (vs := [9, 4, 1, 3])
    (re := { re2 with buf := (re2.buf.set 1 (BitVec.ofNat 8 (s.length + 1) - 1#8)).dropLast }) g2.can (by simp)
  have hcq : compileQuantifier 0 9#8 re2 = .ok (.ok () re3) := by
    rw [compileQuantifier, hsp, except_ok_bind, if_pos rfl]
    have r1 : rd re2.buf (0 + 1) = .ok (BitVec.ofNat 8 (s.length + 1)) := by rw [b2]; rfl
    have r2 : rd re2.buf (re2.buf.length - 1) = .ok 3 := by
      rw [b2, show (4 :: BitVec.ofNat 8 (s.length + 1) :: (s ++ [x] ++ [3])) = (4 :: BitVec.ofNat 8 (s.length + 1) :: s ++ [x]) ++ [3] by simp]
      simp [rd]
    rw [r1, except_ok_bind, r2, except_ok_bind]
    exact congrArg Except.ok e3
  refine ⟨re3, ?_, by rw [g3.buf, hb]; rfl⟩
  rw [compile, e1, parse, if_pos h1, h2, except_ok_bind]
  simp only [BitVec.reduceEq, if_false, if_true]
  rw [e2]
  dsimp only [List.length_nil]
  rw [parse, if_pos h4, h5, except_ok_bind]
  simp only [BitVec.reduceEq, if_false, if_true, true_or]
  rw [hq, except_ok_bind, if_pos rfl, hz, except_ok_bind]
  simp only [Bool.false_eq_true, if_false, if_true]
  rw [hcq, except_ok_bind]
  dsimp only
  rw [parse, if_neg (by simp; omega), except_ok_bind]
  simp; omega

/-! ## The hypotheses can be met -/

/-- `C171_brackets_partial` for `a(b)` and for `((b)`, which are accepted; `a)b` and `(a)(b` are not. -/
example : (∃ re, compile [0x61#8, 0x28#8, 0x62#8, 0x29#8] 4 = .ok (.none, re, false)) ∧ Plain [0x61#8, 0x28#8, 0x62#8, 0x29#8] ∧
    depth [0x61#8, 0x28#8, 0x62#8, 0x29#8] 0 = some 0 ∧ (∃ re, compile [0x28#8, 0x28#8, 0x62#8, 0x29#8] 4 = .ok (.none, re, false)) ∧
    depth [0x28#8, 0x28#8, 0x62#8, 0x29#8] 0 = some 1 :=
  ⟨⟨_, rfl⟩, by simp [Plain], rfl, ⟨_, rfl⟩, rfl⟩

example : ¬ (∃ re, compile [0x61#8, 0x29#8, 0x62#8] 3 = .ok (.none, re, false)) ∧
    ¬ ∃ re, compile [0x28#8, 0x61#8, 0x29#8, 0x28#8, 0x62#8] 5 = .ok (.none, re, false) := by
  constructor
  · rintro ⟨re, h⟩
    obtain ⟨k, h1, -⟩ := C171_brackets_partial (by decide) (by simp [Plain]) h
    exact absurd h1 (by simp [depth])
  · rintro ⟨re, h⟩
    obtain ⟨k, h1, h2⟩ := C171_brackets_partial (by decide) (by simp [Plain]) h
    simp [depth] at h1 h2
    omega

/-- `C171_unclosed_accepted` for `((ab)` and `((ab))`. -/
example : ∃ re re', compile [0x28#8, 0x28#8, 0x61#8, 0x62#8, 0x29#8] 5 = .ok (.none, re, false) ∧
    compile [0x28#8, 0x28#8, 0x61#8, 0x62#8, 0x29#8, 0x29#8] 6 = .ok (.none, re', false) ∧ re.buf = re'.buf ∧ re.captures = re'.captures :=
  C171_unclosed_accepted (q := .lit [0x61#8, 0x62#8] .nil) (by decide) (by decide) rfl rfl
    ⟨rfl, by simp, by simp [Ordinary, metaChars], by simp [Pat.extra], trivial⟩ rfl (by decide)

/-- `C171_nothing_to_repeat` for `^*a` and `C171_group_refused` for `(?a)`. -/
example : (∃ re, compile [0x5e#8, 0x2a#8, 0x61#8] 3 = .ok (.invalidQuantifier, re, true)) ∧
    ∃ re, compile [0x28#8, 0x3f#8, 0x61#8, 0x29#8] 4 = .ok (.mismatchedCaptures, re, true) :=
  ⟨C171_nothing_to_repeat (Or.inl rfl) (Or.inr (Or.inl rfl)), C171_group_refused (Or.inr (Or.inr rfl)) rfl⟩

/-- `C171_group_not_repeated` for `(ab)+c` and `C171_repeated_anchor` for `ab$*`. -/
example : (∃ re, compile [0x28#8, 0x61#8, 0x62#8, 0x29#8, 0x2b#8, 0x63#8] 6 = .ok (.invalidQuantifier, re, true)) ∧
    ∃ re, compile [0x61#8, 0x62#8, 0x24#8, 0x2a#8] 4 = .ok (.none, re, false) ∧ re.buf = [4, 1, 0x61#8, 0x62#8, 9, 4, 1, 3] :=
  ⟨C171_group_not_repeated (q := .lit [0x61#8, 0x62#8] .nil) (by decide) (Or.inr (Or.inl rfl)) rfl
    ⟨rfl, by simp, by simp [Ordinary, metaChars], by simp [Pat.extra], trivial⟩ rfl (by decide),
    C171_repeated_anchor (s := [0x61#8]) (x := 0x62#8) (by simp [Ordinary, metaChars]) (by simp) (by decide) (by decide) rfl⟩

/-- `C171_set_unclosed` for `[ab`. -/
example : ∃ re re', compile [0x5b#8, 0x61#8, 0x62#8] 3 = .ok (.none, re, false) ∧ compile [0x61#8, 0x62#8] 2 = .ok (.none, re', false) ∧ re.buf = re'.buf :=
  C171_set_unclosed (by simp [Ordinary, metaChars]) (by simp) (by decide) (by decide) (by decide) rfl rfl

end Zpl.Regex
