import Verif.Parse.Regex

/-!
# Regular expressions: compiling any pattern

C84, about the model of `zpl_re_compile` in `Verif.Parse.Regex`.
-/

namespace Zpl.Regex
open Zpl.Str

/-! ## Property theorems: compiling stays inside the pattern and the buffer -/

/-- What holds of the expression while the compiler is at `off`, inside `level` groups that are still to be closed. -/
structure Roomy (re : Re) (len level off : Nat) : Prop where
  can : re.canRealloc = true
  cap : len + 128 ≤ re.cap
  len : re.buf.length + 2 * level ≤ 4 * off

/-- The operation a quantifier would be put on is whole. -/
def Whole (re : Re) (last : Nat) : Prop := last ≤ re.buf.length ∧ (last < re.buf.length → last + 1 < re.buf.length ∨ re.buf[last]? ≠ some 4#8)

/-- An outcome of the compiler begun at `off`, with `base` bytes in the buffer: no fault but going on for ever, and that only with a `]` in the pattern. -/
def Fine (pat : List Byte) (len level base off : Nat) : Except Fault (Res Nat) → Prop
  | .error f => f = .diverge ∧ 0x5d#8 ∈ pat.take len
  | .ok (.err e _) => e ≠ .none
  | .ok (.ok o re) => off ≤ o ∧ o ≤ len ∧ Roomy re len level o ∧ base ≤ re.buf.length ∧ (level = 0 → o = len)

theorem Fine.mono {pat : List Byte} {len level base off off' : Nat} {r : Except Fault (Res Nat)} (h : Fine pat len level base off' r) (hle : off ≤ off') :
    Fine pat len level base off r := by
  match r, h with
  | .error _, h => exact h
  | .ok (.err _ _), h => exact h
  | .ok (.ok o re), h => exact ⟨by have := h.1; omega, h.2⟩

theorem emitOps_or {vs : List Int} {re : Re} (hc : re.canRealloc = true) :
    (∃ re', emitOps vs re = .ok () re' ∧ Grown re re' (vs.map (BitVec.ofInt 8)) 0) ∨ ∃ e re', emitOps vs re = .err e re' := by
  by_cases h : ∀ v ∈ vs, v ≤ 256
  · exact Or.inl (emitOps_ok hc h)
  · right
    obtain ⟨cap, h1, h2⟩ := room_ok vs.length hc
    have key : ∀ (vs : List Int) (re : Re), (¬ ∀ v ∈ vs, v ≤ 256) → ∃ e re', emitLoop vs re = .err e re' := by
      intro vs
      induction vs with
      | nil => intro re h; exact absurd (by simp) h
      | cons v vs ih =>
        intro re h
        rw [emitLoop]
        by_cases hv : v > 256
        · rw [if_pos hv]; exact ⟨_, _, rfl⟩
        · rw [if_neg hv]
          apply ih
          intro h'
          apply h
          intro w hw
          rcases List.mem_cons.1 hw with rfl | hw
          · omega
          · exact h' w hw
    obtain ⟨e, re', h3⟩ := key vs { re with cap := cap } h
    exact ⟨e, re', by rw [emitOps, h2]; exact h3⟩

/-- An error of the compiler is not `ZPL_RE_ERROR_NONE`. -/
theorem emitOps_err {vs : List Int} {re re' : Re} {e : Err} (h : emitOps vs re = .err e re') : e ≠ .none := by
  have key : ∀ (vs : List Int) (re : Re), emitLoop vs re = .err e re' → e ≠ .none := by
    intro vs
    induction vs with
    | nil => intro re h; simp [emitLoop] at h
    | cons v vs ih =>
      intro re h
      rw [emitLoop] at h
      split at h
      · simp only [Res.err.injEq] at h; rw [← h.1]; decide
      · exact ih _ h
  rw [emitOps] at h
  split at h
  · exact key _ _ h
  · simp only [Res.err.injEq] at h; rw [← h.1]; decide

theorem codeBytes_length (k : Int) : 1 ≤ (codeBytes k).length ∧ (codeBytes k).length ≤ 2 := by
  unfold codeBytes; split <;> simp

theorem groupItem_safe {pat : List Byte} {len off : Nat} (hl : len ≤ pat.length) (h : off < len) :
    ∃ bs o, groupItem pat len off = .ok (bs, o) ∧ off < o ∧ bs.length ≤ o - off := by
  rw [groupItem, rd_ok (by omega), except_ok_bind]
  by_cases h1 : pat[off] = 0x5c#8
  · rw [if_pos h1]
    by_cases h2 : off + 1 < len
    · rw [if_pos h2, rd_ok (by omega), except_ok_bind]
      by_cases h3 : off + 2 < len ∧ Chars.isHexDigit pat[off + 1] = true
      · rw [if_pos h3, rd_ok (by omega), except_ok_bind]
        exact ⟨_, _, rfl, by omega, by simp⟩
      · rw [if_neg h3]
        refine ⟨_, _, rfl, by omega, ?_⟩
        have := codeBytes_length (encodeEscape pat[off + 1])
        omega
    · rw [if_neg h2]
      exact ⟨_, _, rfl, by omega, by simp⟩
  · rw [if_neg h1]
    exact ⟨_, _, rfl, by omega, by simp⟩

theorem groupLoop_safe {pat : List Byte} {len : Nat} (hl : len ≤ pat.length) : ∀ (n off : Nat) (buffer : List Byte), len - off < n → buffer.length ≤ 256 →
    ∃ g, groupLoop pat len n off buffer = .ok g ∧ ∀ b o, g = .closed b o → off < o ∧ o ≤ len ∧ b.length ≤ 256 ∧ b.length + off + 1 ≤ buffer.length + o
  | 0, _, _, h, _ => by omega
  | n + 1, off, buffer, h, hb => by
    rw [groupLoop]
    by_cases h1 : off < len
    · rw [if_pos h1, rd_ok (by omega), except_ok_bind]
      by_cases h2 : pat[off] = 0x5d#8
      · rw [if_pos h2]
        refine ⟨_, rfl, fun b o hbo => ?_⟩
        cases hbo
        omega
      · rw [if_neg h2]
        by_cases h3 : buffer.length ≥ 256
        · rw [if_pos h3]
          exact ⟨_, rfl, fun b o hbo => by cases hbo⟩
        · rw [if_neg h3]
          obtain ⟨bs, o, e, ho, hbs⟩ := groupItem_safe hl h1
          rw [e, except_ok_bind]
          dsimp only
          by_cases h4 : buffer.length + bs.length > 256
          · rw [if_pos h4]
            exact ⟨_, rfl, fun b o hbo => by cases hbo⟩
          · rw [if_neg h4]
            obtain ⟨g, e2, h5⟩ := groupLoop_safe hl n o (buffer ++ bs) (by omega) (by simp; omega)
            refine ⟨g, e2, fun b o' hbo => ?_⟩
            have := h5 b o' hbo
            simp at this
            omega
    · rw [if_neg h1]
      exact ⟨_, rfl, fun b o hbo => by cases hbo⟩

/-- A set adds its operations, or nothing. -/
theorem parseGroup_safe {pat : List Byte} {len off : Nat} {re : Re} (hl : len < pat.length) (h : off ≤ len) (hc : re.canRealloc = true) :
    (∃ e, parseGroup pat len off re = .ok (.err e re)) ∨
      ∃ o re' bs, parseGroup pat len off re = .ok (.ok o re') ∧ off < o ∧ o ≤ len ∧ Grown re re' bs 0 ∧ 2 ≤ bs.length ∧ bs.length ≤ 1 + (o - off) := by
  rw [parseGroup, rd_ok (by omega), except_ok_bind]
  dsimp only
  generalize hoff : (if decide (pat[off] = 94#8) = true then off + 1 else off) = off'
  have ho : off ≤ off' ∧ off' ≤ off + 1 := by rw [← hoff]; split <;> omega
  obtain ⟨g, e, hg⟩ := groupLoop_safe (Nat.le_of_lt hl) (len + 1) off' [] (by omega) (by simp)
  rw [e, except_ok_bind]
  match g, hg with
  | .tooLong, _ => exact Or.inl ⟨_, rfl⟩
  | .unclosed, _ => exact Or.inl ⟨_, rfl⟩
  | .closed b o, hg =>
    obtain ⟨h1, h2, h3, h4⟩ := hg b o rfl
    right
    dsimp only
    generalize hop : (if decide (pat[off] = 94#8) = true then (8 : Int) else 7) = op
    have hop' : op ≤ 256 := by rw [← hop]; split <;> omega
    obtain ⟨re1, e1, g1⟩ := emitOps_ok (vs := [op, (b.length : Int)]) hc (by
      intro v hv
      simp only [List.mem_cons, List.not_mem_nil, or_false] at hv
      rcases hv with rfl | rfl <;> omega)
    obtain ⟨re2, e2, g2⟩ := emitBuffer_ok (bs := b) g1.can
    refine ⟨o, re2, [BitVec.ofInt 8 op, BitVec.ofInt 8 b.length] ++ b, ?_, by omega, h2, ⟨?_, ?_, g2.can, ?_⟩, by simp, ?_⟩
    · rw [emitGroup, e1]
      dsimp only
      rw [e2]
    · rw [g2.buf, g1.buf]; simp
    · have := g1.cap; have := g2.cap; omega
    · rw [g2.caps, g1.caps]
    · simp at h4 ⊢; omega

theorem runLength_safe {pat : List Byte} {len : Nat} (hl : len ≤ pat.length) : ∀ (n off : Nat), len - off < n → ∃ k, runLength pat len n off = .ok k ∧ (off + k ≤ len ∨ k = 0) ∧
    (off < len → ∀ c, pat[off]? = some c → c ∉ metaChars → 1 ≤ k)
  | 0, _, h => by omega
  | n + 1, off, h => by
    rw [runLength]
    by_cases h1 : off < len
    · rw [if_pos h1, rd_ok (by omega), except_ok_bind]
      by_cases h2 : metaChars.contains pat[off] = true
      · rw [if_pos h2]
        refine ⟨0, rfl, Or.inr rfl, fun _ c hc hm => ?_⟩
        rw [List.getElem?_eq_getElem (by omega)] at hc
        simp only [Option.some.injEq] at hc
        subst hc
        exact absurd (List.contains_iff_mem.1 h2) hm
      · rw [if_neg h2]
        obtain ⟨k, e, h3, -⟩ := runLength_safe hl n (off + 1) (by omega)
        rw [e, except_ok_bind]
        exact ⟨k + 1, rfl, by omega, fun _ _ _ _ => by omega⟩
    · rw [if_neg h1]
      exact ⟨0, rfl, Or.inr rfl, fun h => absurd h h1⟩

theorem literal_safe {pat : List Byte} {len off : Nat} {re : Re} {c : Byte} (hl : len ≤ pat.length) (h : off < len) (hc : re.canRealloc = true)
    (hch : pat[off]? = some c) (hm : c ∉ metaChars) :
    (∃ e re', literal pat len off re = .ok (.err e re') ∧ e ≠ .none) ∨
      ∃ k re' bs, literal pat len off re = .ok (.ok k re') ∧ 1 ≤ k ∧ off + k ≤ len ∧ Grown re re' bs 0 ∧ 2 ≤ bs.length ∧ bs.length ≤ 2 + k := by
  obtain ⟨k, e, h1, h2⟩ := runLength_safe hl (len + 1) off (by omega)
  have hk := h2 h c hch hm
  rw [literal, e, except_ok_bind]
  rcases emitOps_or (vs := [4, (k : Int)]) hc with ⟨re1, e1, g1⟩ | ⟨er, re1, e1⟩
  · rw [e1]
    dsimp only
    obtain ⟨re2, e2, g2⟩ := emitBuffer_ok (bs := (pat.drop off).take k) g1.can
    rw [e2]
    refine Or.inr ⟨k, re2, List.map (BitVec.ofInt 8) [4, (k : Int)] ++ (pat.drop off).take k, rfl, hk, by omega, ⟨?_, ?_, g2.can, ?_⟩, by simp, ?_⟩
    · rw [g2.buf, g1.buf]; simp
    · have := g1.cap; have := g2.cap; omega
    · rw [g2.caps, g1.caps]
    · simp; omega
  · rw [e1]
    exact Or.inl ⟨_, _, rfl, emitOps_err e1⟩

theorem escape_safe {pat : List Byte} {len off : Nat} {re : Re} (hl : len ≤ pat.length) (h : off ≤ len) (hc : re.canRealloc = true) :
    (∃ e re', escape pat len off re = .ok (.err e re') ∧ e ≠ .none) ∨
      ∃ o re' bs, escape pat len off re = .ok (.ok o re') ∧ off ≤ o ∧ o ≤ len ∧ Grown re re' bs 0 ∧ (bs = [] ∨ (2 ≤ bs.length ∧ bs.length ≤ 3)) := by
  rw [escape]
  by_cases h1 : off < len
  · rw [if_pos h1, rd_ok (by omega), except_ok_bind]
    by_cases h2 : off + 1 < len ∧ Chars.isHexDigit pat[off] = true
    · rw [if_pos h2, rd_ok (by omega), except_ok_bind]
      rcases emitOps_or (vs := [5, ((hexByte pat[off] pat[off + 1]).toNat : Int)]) hc with ⟨re1, e1, g1⟩ | ⟨er, re1, e1⟩
      · rw [e1]
        exact Or.inr ⟨_, _, _, rfl, by omega, by omega, g1, Or.inr (by simp)⟩
      · rw [e1]
        exact Or.inl ⟨_, _, rfl, emitOps_err e1⟩
    · rw [if_neg h2]
      rcases emitOps_or (vs := 5 :: (codeBytes (encodeEscape pat[off])).map fun b => (b.toNat : Int)) hc with ⟨re1, e1, g1⟩ | ⟨er, re1, e1⟩
      · rw [e1]
        have := codeBytes_length (encodeEscape pat[off])
        exact Or.inr ⟨_, _, _, rfl, by omega, by omega, g1, Or.inr (by simp; omega)⟩
      · rw [e1]
        exact Or.inl ⟨_, _, rfl, emitOps_err e1⟩
  · rw [if_neg h1]
    exact Or.inr ⟨off, re, [], rfl, by omega, by omega, ⟨by simp, Nat.le_refl _, hc, rfl⟩, Or.inl rfl⟩

theorem quantifier_safe {re : Re} {last : Nat} {q : Byte} (hc : re.canRealloc = true) (hw : Whole re last) (hcap : re.buf.length + 2 ≤ re.cap)
    (hlast : last < re.buf.length) (hq : q ≠ 4#8) :
    (∃ e re', compileQuantifier last q re = .ok (.err e re') ∧ e ≠ .none) ∨
      ∃ re', compileQuantifier last q re = .ok (.ok () re') ∧ re'.canRealloc = true ∧ re.cap ≤ re'.cap ∧ re'.buf.length ≤ re.buf.length + 3 ∧ re.buf.length ≤ re'.buf.length ∧ Whole re' last := by
  have hsplit : ∃ b, splits last re = .ok b ∧ (b = true → last + 1 < re.buf.length) := by
    rw [splits, rd_ok hlast, except_ok_bind]
    by_cases h4 : re.buf[last] = 4#8
    · have h5 : last + 1 < re.buf.length := by
        rcases hw.2 hlast with h | h
        · exact h
        · rw [List.getElem?_eq_getElem hlast, h4] at h
          exact absurd rfl h
      rw [if_pos h4, rd_ok h5, except_ok_bind]
      exact ⟨_, rfl, fun _ => h5⟩
    · rw [if_neg h4]
      exact ⟨false, rfl, fun h => absurd h (by decide)⟩
  obtain ⟨b, hb, hb2⟩ := hsplit
  rw [compileQuantifier, hb, except_ok_bind]
  cases b with
  | true =>
    have h5 := hb2 rfl
    simp only [if_true]
    rw [rd_ok h5, except_ok_bind, rd_ok (show re.buf.length - 1 < re.buf.length by omega), except_ok_bind]
    rcases emitOps_or (vs := [(q.toNat : Int), 4, 1, (re.buf[re.buf.length - 1].toNat : Int)])
      (re := { re with buf := (re.buf.set (last + 1) (re.buf[last + 1] - 1#8)).dropLast }) hc with ⟨re1, e1, g1⟩ | ⟨er, re1, e1⟩
    · rw [e1]
      have hbuf := congrArg List.length g1.buf
      simp at hbuf
      refine Or.inr ⟨re1, rfl, g1.can, g1.cap, by omega, by omega, by omega, fun _ => Or.inl (by omega)⟩
    · rw [e1]
      exact Or.inl ⟨_, _, rfl, emitOps_err e1⟩
  | false =>
    simp only [Bool.false_eq_true, if_false]
    obtain ⟨re1, e1, g1⟩ := emitOps_ok (vs := [0]) hc (by simp)
    rw [e1]
    dsimp only
    have := g1.cap
    rw [if_neg (by omega)]
    refine Or.inr ⟨_, rfl, g1.can, g1.cap, by simp; omega, by simp; omega, by simp; omega, fun _ => Or.inl ?_⟩
    simp; omega

theorem Roomy.grow {re re' : Re} {bs : List Byte} {k len level off off' : Nat} (h : Roomy re len level off) (g : Grown re re' bs k) (hle : off ≤ off') (hb : bs.length ≤ 4 * (off' - off)) :
    Roomy re' len level off' :=
  ⟨g.can, Nat.le_trans h.cap g.cap, by have := h.len; rw [g.buf, List.length_append]; omega⟩

theorem Whole.grow {re re' : Re} {bs : List Byte} {k last : Nat} (h : Whole re last) (g : Grown re re' bs k) (hb : bs.length ≠ 1 ∨ bs.head? ≠ some 4#8) : Whole re' last := by
  obtain ⟨h0, h⟩ := h
  refine ⟨by rw [g.buf, List.length_append]; omega, ?_⟩
  intro hl
  rw [g.buf] at hl ⊢
  simp only [List.length_append] at hl ⊢
  by_cases h1 : last < re.buf.length
  · rcases h h1 with h2 | h2
    · exact Or.inl (by omega)
    · right
      rw [List.getElem?_append_left h1]
      exact h2
  · have hlast : last = re.buf.length := by omega
    subst hlast
    rcases hb with hb | hb
    · exact Or.inl (by omega)
    · right
      rw [List.getElem?_append_right (by omega), Nat.sub_self, ← List.head?_eq_getElem?]
      exact hb

theorem Whole.new (re : Re) : Whole re re.buf.length := ⟨Nat.le_refl _, fun h => absurd h (by omega)⟩

/-- regex.c:531-679 stays inside the pattern and the buffer. -/
theorem parse_safe {pat : List Byte} {len : Nat} (hl : len < pat.length)
    (hq : len ≤ 42 ∨ ∀ c ∈ pat.take len, c ≠ 0x2a#8 ∧ c ≠ 0x2b#8 ∧ c ≠ 0x3f#8) : ∀ (n : Nat) (re : Re) (last begin_ : Nat) (b : Option Nat) (off level base : Nat),
    base ≤ re.buf.length → off ≤ len → len - off < n → Roomy re len level off → Whole re last → Fine pat len level base off (parse pat len n re last begin_ b off level)
  | 0, _, _, _, _, _, _, _, _, _, h, _, _ => by omega
  | n + 1, re, last, begin_, b, off, level, base, hbase, hoff, hn, hr, hw => by
    have ih := fun re last begin_ b off' level (h0 : off ≤ off') hb h1 h2 h3 h4 => (parse_safe hl hq n re last begin_ b off' level base hb h1 h2 h3 h4).mono h0
    by_cases h1 : off < len
    · have hoffp : off < pat.length := by omega
      have hmem : pat[off] ∈ pat.take len := by
        rw [List.mem_iff_getElem]
        exact ⟨off, by simp; omega, by simp⟩
      have hget : pat[off]? = some pat[off] := List.getElem?_eq_getElem hoffp
      by_cases hbr : pat[off] = 0x5d#8
      · have h2 : (pat.take len).drop off = 0x5d#8 :: (pat.take len).drop (off + 1) := by
          rw [List.drop_eq_getElem_cons (by simp; omega)]
          simp [hbr]
        rw [parse_bracket (Nat.le_of_lt hl) h2 _ _ _ _ _ _ hr.can]
        exact ⟨rfl, by rw [← hbr]; exact hmem⟩
      rw [parse, if_pos h1, rd_ok hoffp, except_ok_bind]
      have hquant : ∀ (q : Byte) (d : Nat), q ≠ 4#8 → 1 ≤ d → off + d ≤ len → len ≤ 42 → ∀ {r : Except Fault (Res Nat)}, last < re.buf.length →
          r = (compileQuantifier last q re >>= fun x => match x with
            | .err e re => .ok (.err e re)
            | .ok _ re => parse pat len n re last begin_ b (off + d) level) → Fine pat len level base off r := by
        intro q d hq4 hd hdl h42 r hlast hr'
        rcases quantifier_safe (q := q) hr.can hw (by have := hr.len; have := hr.cap; omega) hlast hq4 with ⟨e, re', e1, hne⟩ | ⟨re', e1, c1, c2, c3, c5, c4⟩
        · rw [hr', e1, except_ok_bind]
          exact hne
        · rw [hr', e1, except_ok_bind]
          exact ih _ _ _ _ _ _ (by omega) (by omega) hdl (by omega) ⟨c1, Nat.le_trans hr.cap c2, by have := hr.len; omega⟩ c4
      have hquantifiable : ∃ v, quantifiable re last = .ok v ∧ (v = true → last < re.buf.length) := by
        rw [quantifiable]
        by_cases h2 : last ≥ re.buf.length
        · rw [if_pos h2]; exact ⟨_, rfl, fun h => absurd h (by decide)⟩
        · rw [if_neg h2, rd_ok (by omega), except_ok_bind]
          exact ⟨_, rfl, fun _ => by omega⟩
      have hq42 : pat[off] = 0x2a#8 ∨ pat[off] = 0x2b#8 ∨ pat[off] = 0x3f#8 → len ≤ 42 := by
        intro h
        rcases hq with h2 | h2
        · exact h2
        · have := h2 _ hmem
          rcases h with h | h | h
          · exact absurd h this.1
          · exact absurd h this.2.1
          · exact absurd h this.2.2
      by_cases hc0 : pat[off] = 0x5e#8
      · -- ^
        rw [if_pos hc0]
        rcases emitOps_or (vs := [2]) hr.can with ⟨re1, e1, g1⟩ | ⟨e, re1, e1⟩
        · rw [e1]
          have hgl := congrArg List.length g1.buf
          rw [List.length_append] at hgl
          exact ih _ _ _ _ _ _ (by omega) (by omega) (by omega) (by omega) (hr.grow g1 (by omega) (by simp)) (hw.grow g1 (Or.inr (by decide)))
        · rw [e1]; exact emitOps_err e1
      rw [if_neg hc0]
      by_cases hc1 : pat[off] = 0x24#8
      · -- $
        rw [if_pos hc1]
        rcases emitOps_or (vs := [3]) hr.can with ⟨re1, e1, g1⟩ | ⟨e, re1, e1⟩
        · rw [e1]
          have hgl := congrArg List.length g1.buf
          rw [List.length_append] at hgl
          exact ih _ _ _ _ _ _ (by omega) (by omega) (by omega) (by omega) (hr.grow g1 (by omega) (by simp)) (hw.grow g1 (Or.inr (by decide)))
        · rw [e1]; exact emitOps_err e1
      rw [if_neg hc1]
      by_cases hc2 : pat[off] = 0x28#8
      · -- (
        rw [if_pos hc2]
        rcases emitOps_or (vs := [0, (re.captures : Int)]) (re := { re with captures := re.captures + 1 }) hr.can with ⟨re1, e1, g1⟩ | ⟨e, re1, e1⟩
        · rw [e1]
          dsimp only
          have hr1 : Roomy re1 len (level + 1) (off + 1) :=
            ⟨g1.can, Nat.le_trans hr.cap g1.cap, by have := hr.len; have := congrArg List.length g1.buf; simp at this; omega⟩
          have hin1 := parse_safe hl hq n re1 re1.buf.length re1.buf.length none (off + 1) (level + 1) re1.buf.length (by omega) (by omega) (by omega) hr1 (Whole.new _)
          match hres : parse pat len n re1 re1.buf.length re1.buf.length none (off + 1) (level + 1), hin1 with
          | .error f, hin1 => rw [except_error_bind]; exact hin1
          | .ok (.err e re2), _ =>
            rw [except_ok_bind]
            dsimp only
            rw [if_neg (by omega), Nat.add_sub_cancel, rd_ok hoffp, except_ok_bind, if_pos (by rw [hc2]; decide)]
            exact (by decide : Err.mismatchedCaptures ≠ .none)
          | .ok (.ok o re2), hin1 =>
            obtain ⟨ho1, ho2, hr2, hmon, -⟩ := hin1
            rw [except_ok_bind]
            dsimp only
            rw [if_neg (by omega), rd_ok (by omega), except_ok_bind]
            split
            · exact (by decide : Err.mismatchedCaptures ≠ .none)
            · rcases emitOps_or (vs := [1, (re.captures : Int)]) hr2.can with ⟨re3, e3, g3⟩ | ⟨e, re3, e3⟩
              · rw [e3]
                have h3 := congrArg List.length g3.buf
                have h2 := congrArg List.length g1.buf
                simp at h2 h3
                have := hr2.len
                refine ih _ _ _ _ _ _ (by omega) (by omega) ho2 (by omega) ⟨g3.can, Nat.le_trans hr2.cap g3.cap, by omega⟩ ⟨by omega, fun _ => Or.inl (by omega)⟩
              · rw [e3]; exact emitOps_err e3
        · rw [e1]; exact emitOps_err e1
      rw [if_neg hc2]
      by_cases hc3 : pat[off] = 0x29#8
      · -- )
        rw [if_pos hc3]
        dsimp only
        have hcl : (closeBranch b re).canRealloc = re.canRealloc ∧ (closeBranch b re).cap = re.cap ∧ (closeBranch b re).buf.length = re.buf.length := by
          cases b with
          | none => exact ⟨rfl, rfl, rfl⟩
          | some b => exact ⟨rfl, rfl, by simp [closeBranch]⟩
        by_cases hlev : level = 0
        · rw [if_pos hlev]; exact (by decide : Err.mismatchedCaptures ≠ .none)
        · rw [if_neg hlev]
          exact ⟨by omega, by omega, ⟨by rw [hcl.1]; exact hr.can, by rw [hcl.2.1]; exact hr.cap, by have := hr.len; omega⟩, by omega, fun h => absurd h hlev⟩
      rw [if_neg hc3]
      by_cases hc4 : pat[off] = 0x5b#8
      · -- [
        rw [if_pos hc4]
        rcases parseGroup_safe (re := re) (off := off + 1) hl (by omega) hr.can with ⟨e, e1⟩ | ⟨o, re1, bs, e1, ho1, ho2, g1, hb1, hb2⟩
        · rw [e1, except_ok_bind]
          exact ih _ _ _ _ _ _ (by omega) (by omega) (by omega) (by omega) ⟨hr.can, hr.cap, by have := hr.len; omega⟩ (Whole.new _)
        · rw [e1, except_ok_bind]
          dsimp only
          rw [if_neg (by omega)]
          have hgl := congrArg List.length g1.buf
          rw [List.length_append] at hgl
          exact ih _ _ _ _ _ _ (by omega) (by omega) ho2 (by omega) (hr.grow g1 (by omega) (by omega)) ((Whole.new _).grow g1 (Or.inl (by omega)))
      rw [if_neg hc4]
      by_cases hc5 : pat[off] = 0x7c#8
      · -- |
        rw [if_pos hc5, branch]
        by_cases hbeg : begin_ ≥ re.buf.length
        · rw [if_pos hbeg]; exact (by decide : Err.branchFailure ≠ .none)
        · rw [if_neg hbeg]
          obtain ⟨re1, e1, g1⟩ := emitOps_ok (vs := [0, 0, 15, 0]) hr.can (by simp)
          rw [e1]
          dsimp only
          have hlen : (re.buf.take begin_ ++ [14#8, BitVec.ofNat 8 (re.buf.length - begin_ + 2)] ++ re.buf.drop begin_ ++ [15#8, 0#8]).length = re.buf.length + 4 := by
            simp; omega
          have := hw.1
          refine ih _ _ _ _ _ _ (by omega) ?_ (by omega) (by omega) ⟨g1.can, Nat.le_trans hr.cap g1.cap, ?_⟩ ⟨?_, fun _ => Or.inl ?_⟩
          · dsimp only; omega
          · dsimp only; have := hr.len; omega
          · dsimp only; omega
          · dsimp only; omega
      rw [if_neg hc5]
      by_cases hc6 : pat[off] = 0x2e#8
      · -- .
        rw [if_pos hc6]
        rcases emitOps_or (vs := [6]) hr.can with ⟨re1, e1, g1⟩ | ⟨e, re1, e1⟩
        · rw [e1]
          have hgl := congrArg List.length g1.buf
          rw [List.length_append] at hgl
          exact ih _ _ _ _ _ _ (by omega) (by omega) (by omega) (by omega) (hr.grow g1 (by omega) (by simp)) ((Whole.new _).grow g1 (Or.inr (by decide)))
        · rw [e1]; exact emitOps_err e1
      rw [if_neg hc6]
      by_cases hc7 : pat[off] = 0x2a#8 ∨ pat[off] = 0x2b#8
      · -- * +
        rw [if_pos hc7]
        obtain ⟨v, hv, hv2⟩ := hquantifiable
        rw [hv, except_ok_bind]
        cases v with
        | false => exact (by decide : Err.invalidQuantifier ≠ .none)
        | true =>
          simp only [if_true]
          have hlz : ∃ z, lazyMark pat len (off + 1) = .ok z ∧ (z = true → off + 2 ≤ len) := by
            rw [lazyMark]
            by_cases h2 : off + 1 < len
            · rw [if_pos h2, rd_ok (by omega), except_ok_bind]
              exact ⟨_, rfl, fun _ => by omega⟩
            · rw [if_neg h2]
              exact ⟨false, rfl, fun h => absurd h (by decide)⟩
          obtain ⟨z, hz, hz2⟩ := hlz
          rw [hz, except_ok_bind]
          have h42 : len ≤ 42 := by
            rcases hc7 with h | h
            · exact hq42 (Or.inl h)
            · exact hq42 (Or.inr (Or.inl h))
          cases z with
          | true => exact hquant 12#8 2 (by decide) (by omega) (hz2 rfl) h42 (hv2 rfl) rfl
          | false => exact hquant (if pat[off] = 0x2a#8 then 9#8 else 10#8) 1 (by split <;> decide) (by omega) (by omega) h42 (hv2 rfl) rfl
      rw [if_neg hc7]
      by_cases hc8 : pat[off] = 0x3f#8
      · -- ?
        rw [if_pos hc8]
        obtain ⟨v, hv, hv2⟩ := hquantifiable
        rw [hv, except_ok_bind]
        cases v with
        | false => exact (by decide : Err.invalidQuantifier ≠ .none)
        | true =>
          simp only [if_true]
          exact hquant 13#8 1 (by decide) (by omega) (by omega) (hq42 (Or.inr (Or.inr hc8))) (hv2 rfl) rfl
      rw [if_neg hc8]
      by_cases hc9 : pat[off] = 0x5c#8
      · -- \
        rw [if_pos hc9]
        rcases escape_safe (re := re) (off := off + 1) (Nat.le_of_lt hl) (by omega) hr.can with ⟨e, re1, e1, hne⟩ | ⟨o, re1, bs, e1, ho1, ho2, g1, hb⟩
        · rw [e1, except_ok_bind]; exact hne
        · rw [e1, except_ok_bind]
          have hgl := congrArg List.length g1.buf
          rw [List.length_append] at hgl
          have hb' : bs.length ≤ 3 ∧ bs.length ≠ 1 := by
            rcases hb with hb | hb
            · simp [hb]
            · omega
          exact ih _ _ _ _ _ _ (by omega) (by omega) ho2 (by omega) (hr.grow g1 (by omega) (by omega)) ((Whole.new _).grow g1 (Or.inl hb'.2))
      · rw [if_neg hc9]
        -- a run of ordinary characters
        have hm : pat[off] ∉ metaChars := by
          simp only [metaChars, List.mem_cons, List.not_mem_nil, or_false, not_or]
          simp only [not_or] at hc7
          exact ⟨hc0, hc1, hc2, hc3, hc4, hbr, hc6, hc7.1, hc7.2, hc8, hc5, hc9⟩
        rcases literal_safe (re := re) (Nat.le_of_lt hl) h1 hr.can hget hm with ⟨e, re1, e1, hne⟩ | ⟨k, re1, bs, e1, hk, hk2, g1, hb1, hb2⟩
        · rw [e1, except_ok_bind]; exact hne
        · rw [e1, except_ok_bind]
          have hgl := congrArg List.length g1.buf
          rw [List.length_append] at hgl
          exact ih _ _ _ _ _ _ (by omega) (by omega) hk2 (by omega) (hr.grow g1 (by omega) (by omega)) ((Whole.new _).grow g1 (Or.inl (by omega)))
    · rw [parse, if_neg h1]
      exact ⟨Nat.le_refl _, hoff, hr, hbase, fun _ => by omega⟩

/-- C84, the part that holds.  Of a terminated pattern of any characters, with at most 42 of them or no quantifier among them: compiling comes to an end
without reading outside of the pattern or writing outside of the buffer, and the buffer is given back exactly when there was an error; the one exception is
a pattern with a `]`, where compiling may go on for ever.  Missing, and false by `C84_bracket_diverges` and `C84_quantifier_overflow`: that it ends for
every pattern, and longer patterns with quantifiers. -/
theorem C84_compile_partial {pat : List Byte} {len : Nat} (hl : len < pat.length)
    (hq : len ≤ 42 ∨ ∀ c ∈ pat.take len, c ≠ 0x2a#8 ∧ c ≠ 0x2b#8 ∧ c ≠ 0x3f#8) :
    (∃ e re freed, compile pat len = .ok (e, re, freed) ∧ (0 < len → (freed = true ↔ e ≠ .none))) ∨ (compile pat len = .error .diverge ∧ 0x5d#8 ∈ pat.take len) := by
  have h := parse_safe hl hq (len + 1) { buf := [], cap := len + 128, canRealloc := true, captures := 0 } 0 0 none 0 0 0 (by simp) (by omega) (by omega)
    ⟨rfl, Nat.le_refl _, by simp⟩ ⟨by simp, fun h => absurd h (by simp)⟩
  rw [compile]
  generalize hr : parse pat len (len + 1) { buf := [], cap := len + 128, canRealloc := true, captures := 0 } 0 0 none 0 0 = r at h ⊢
  match r, h with
  | .error f, h =>
    right
    rw [h.1, except_error_bind]
    exact ⟨rfl, h.2⟩
  | .ok (.err e re), h =>
    left
    rw [except_ok_bind]
    refine ⟨e, re, _, rfl, fun h0 => ?_⟩
    have hne : e ≠ .none := h
    simp [hne]
    omega
  | .ok (.ok o re), h =>
    left
    rw [except_ok_bind]
    refine ⟨.none, re, _, rfl, fun h0 => ?_⟩
    simp [h.2.2.2.2 rfl]

/-- `a[b(|*`, in which nearly everything is wrong. -/
example : ∃ e re freed, compile [0x61#8, 0x5b#8, 0x62#8, 0x28#8, 0x7c#8, 0x2a#8, 0#8] 6 = .ok (e, re, freed) ∧ (0 < 6 → (freed = true ↔ e ≠ .none)) := by
  rcases C84_compile_partial (pat := [0x61#8, 0x5b#8, 0x62#8, 0x28#8, 0x7c#8, 0x2a#8, 0#8]) (len := 6) (by simp) (Or.inl (by omega)) with h | h
  · exact h
  · exact absurd h.2 (by decide)

end Zpl.Regex
