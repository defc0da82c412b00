import Verif.Parse.Regex

/-!
# Regular expressions: alternatives and escapes

C85 and C86, about the model of code/source/regex.c in `Verif.Parse.Regex`.
-/

set_option linter.unusedSimpArgs false
set_option linter.unusedVariables false

namespace Zpl.Regex

open Zpl.Str

/-! ## Property theorems: alternatives -/

theorem uniform {Q : Nat → Nat → Prop} : ∀ (L : Nat), (∀ i, i < L → ∃ N, ∀ n, N ≤ n → Q i n) → ∃ N, ∀ i, i < L → ∀ n, N ≤ n → Q i n
  | 0, _ => ⟨0, fun i hi => absurd hi (by omega)⟩
  | L + 1, h => by
    obtain ⟨N1, h1⟩ := uniform L (fun i hi => h i (by omega))
    obtain ⟨N2, h2⟩ := h L (by omega)
    refine ⟨max N1 N2, fun i hi n hn => ?_⟩
    by_cases hl : i < L
    · exact h1 i hl n (by omega)
    · have : i = L := by omega
      subst this
      exact h2 n (by omega)

theorem append_prefix {s t l : List Byte} : s ++ t <+: l ↔ s <+: l ∧ t <+: l.drop s.length := by
  constructor
  · rintro ⟨u, hu⟩
    refine ⟨⟨t ++ u, by rw [← hu, List.append_assoc]⟩, ⟨u, ?_⟩⟩
    rw [← hu, List.append_assoc, List.drop_left]
  · rintro ⟨⟨u, hu⟩, v, hv⟩
    refine ⟨v, ?_⟩
    rw [List.append_assoc, hv, ← hu, List.drop_left]

theorem infix_drop {s l : List Byte} : s <:+: l ↔ ∃ i, s <+: l.drop i := by
  constructor
  · rintro ⟨a, b, h⟩
    exact ⟨a.length, b, by rw [← h, List.append_assoc, List.drop_left]⟩
  · rintro ⟨i, b, h⟩
    exact ⟨l.take i, b, by rw [List.append_assoc, h, List.take_append_drop]⟩

/-- A search whose attempts find `s` or nothing. -/
theorem search_exact {re : Re} {block s : List Byte} {len m : Nat} {a : Byte} (hl : len ≤ block.length) (h0 : s ≠ []) (hm : m ≤ s.length) (ha : a ≠ 2#8)
    (hbuf : rd re.buf 0 = .ok a) (hpos : 0 < re.buf.length)
    (h : ∀ i, i < len → ∃ N, ∀ n, N ≤ n → ∃ o : Int, exec re.buf block len n 0 i [] =
      .ok (⟨o, if s <+: (block.take len).drop i then (i + m : Nat) else -1⟩, [])) :
    (s <:+: block.take len → ∃ N i, s <+: (block.take len).drop i ∧ ∀ n, N ≤ n → reMatch re block len n [] = .ok (true, [], some (i + m : Nat))) ∧
      (¬ s <:+: block.take len → ∃ N, ∀ n, N ≤ n → reMatch re block len n [] = .ok (false, [], none)) := by
  obtain ⟨N, hN⟩ := uniform len h
  have hbound : ∀ i, s <+: (block.take len).drop i → i + s.length ≤ len := by
    intro i hp
    have h1 := hp.length_le
    have h2 := List.length_pos_iff.2 h0
    simp at h1
    omega
  have hre : ∀ n, reMatch re block len n [] = matchLoop re block len n len 0 [] := by
    intro n
    rw [reMatch, if_pos hpos, hbuf, except_ok_bind, if_neg ha]
  have key : ∀ (d i : Nat), i + d = len →
      (∃ k, i ≤ k ∧ s <+: (block.take len).drop k ∧ ∀ n, N ≤ n → matchLoop re block len n d i [] = .ok (true, [], some (k + m : Nat))) ∨
        ((∀ k, i ≤ k → ¬ s <+: (block.take len).drop k) ∧ ∀ n, N ≤ n → matchLoop re block len n d i [] = .ok (false, [], none)) := by
    intro d
    induction d with
    | zero =>
      intro i hi
      refine Or.inr ⟨fun k hk hp => ?_, fun n _ => rfl⟩
      have := hbound k hp
      have := List.length_pos_iff.2 h0
      omega
    | succ d ih =>
      intro i hi
      by_cases hp : s <+: (block.take len).drop i
      · refine Or.inl ⟨i, by omega, hp, fun n hn => ?_⟩
        obtain ⟨o, ho⟩ := hN i (by omega) n hn
        have := hbound i hp
        rw [if_pos hp] at ho
        rw [matchLoop, ho, except_ok_bind]
        dsimp only
        rw [if_pos (by omega)]
      · have hstep : ∀ n, N ≤ n → matchLoop re block len n (d + 1) i [] = matchLoop re block len n d (i + 1) [] := by
          intro n hn
          obtain ⟨o, ho⟩ := hN i (by omega) n hn
          rw [if_neg hp] at ho
          rw [matchLoop, ho, except_ok_bind]
          dsimp only
          rw [if_neg (by omega), if_neg (by omega)]
        rcases ih (i + 1) (by omega) with ⟨k, h1, h2, h3⟩ | ⟨h1, h2⟩
        · exact Or.inl ⟨k, by omega, h2, fun n hn => (hstep n hn).trans (h3 n hn)⟩
        · refine Or.inr ⟨fun k hk hp' => ?_, fun n hn => (hstep n hn).trans (h2 n hn)⟩
          by_cases hki : k = i
          · subst hki; exact hp hp'
          · exact h1 k (by omega) hp'
  rcases key len 0 (by omega) with ⟨k, h1, h2, h3⟩ | ⟨h1, h2⟩
  · refine ⟨fun _ => ⟨N, k, h2, fun n hn => (hre n).trans (h3 n hn)⟩, fun hn => absurd (infix_drop.2 ⟨k, h2⟩) hn⟩
  · refine ⟨fun hi => ?_, fun _ => ⟨N, fun n hn => (hre n).trans (h2 n hn)⟩⟩
    obtain ⟨k, hk⟩ := infix_drop.1 hi
    exact absurd hk (h1 k (by omega))

/-- The matcher at a branch whose first alternative is the text `s`, `skip` bytes in front of the instructions `is`. -/
theorem exec_branch {pre s mid block : List Byte} {K J : Byte} {is : List Instr} {len i : Nat} {r : Int} (hl : len ≤ block.length) (hi : i ≤ len)
    (hs : Text s) (h0 : s ≠ []) (h127 : s.length ≤ 127) (hJ : J.toInt = mid.length) (hok : ∀ ins ∈ is, ins.Ok)
    (hr : ∀ ins ∈ is, ins.reads = true → len < block.length)
    (hrle : r ≤ len) (hrun : s <+: (block.take len).drop i → run block len is (i + s.length) [] = .ok (r, [])) :
    ∃ N, ∀ n, N ≤ n → ∃ o : Int, exec (pre ++ 14#8 :: K :: 4#8 :: BitVec.ofNat 8 s.length :: (s ++ 15#8 :: J :: mid ++ opsOf is)) block len n pre.length i [] =
      .ok (⟨o, if s <+: (block.take len).drop i then r else -1⟩, []) := by
  generalize hB : pre ++ 14#8 :: K :: 4#8 :: BitVec.ofNat 8 s.length :: (s ++ 15#8 :: J :: mid ++ opsOf is) = B
  have hlenB : B.length = pre.length + 4 + s.length + 2 + mid.length + (opsOf is).length := by rw [← hB]; simp; omega
  have rd0 : rdI B pre.length = .ok 14#8 := by rw [← hB]; exact rdI_append _ _ _ rfl
  have rd1 : rdI B ((pre.length : Int) + 1) = .ok K := by
    rw [← hB, show pre ++ 14#8 :: K :: 4#8 :: BitVec.ofNat 8 s.length :: (s ++ 15#8 :: J :: mid ++ opsOf is) =
      (pre ++ [14#8]) ++ K :: 4#8 :: BitVec.ofNat 8 s.length :: (s ++ 15#8 :: J :: mid ++ opsOf is) by simp]
    exact rdI_append _ _ _ (by simp)
  have rd2 : rdI B ((pre.length : Int) + 2) = .ok 4#8 := by
    rw [← hB, show pre ++ 14#8 :: K :: 4#8 :: BitVec.ofNat 8 s.length :: (s ++ 15#8 :: J :: mid ++ opsOf is) =
      (pre ++ [14#8, K]) ++ 4#8 :: BitVec.ofNat 8 s.length :: (s ++ 15#8 :: J :: mid ++ opsOf is) by simp]
    exact rdI_append _ _ _ (by simp)
  have hlit : ∀ n, single B block len (n + 1) ((pre.length : Int) + 2) i [] =
      .ok (if s <+: (block.take len).drop i then ⟨(pre.length : Int) + 4 + s.length, i + s.length⟩ else noMatch ((pre.length : Int) + 4 + s.length), []) := by
    intro n
    apply single_simple n rd2
    rw [show simple B block len 4#8 ((pre.length : Int) + 2 + 1) i [] = _ from simple_exact _ _ _ _ _ _]
    have := exact_ok (pre := pre ++ [14#8, K, 4#8]) (suf := 15#8 :: J :: mid ++ opsOf is) (op := (pre.length : Int) + 3) hs h0 h127 hl hi (by simp)
    have eB : pre ++ [14#8, K, 4#8] ++ BitVec.ofNat 8 s.length :: s ++ (15#8 :: J :: mid ++ opsOf is) = B := by rw [← hB]; simp
    rw [eB] at this
    rw [show (pre.length : Int) + 2 + 1 = pre.length + 3 by omega, this, except_ok_bind]
    have e : (pre.length : Int) + 3 + 1 + s.length = pre.length + 4 + s.length := by omega
    rw [e]
  have hbranch : ∀ n c, exec B block len n ((pre.length : Int) + 2) i [] = .ok (c, []) → c.off ≤ len → single B block len (n + 1) pre.length i [] = .ok (c, []) := by
    intro n c he hc
    rw [single, rd0, except_ok_bind, show simple B block len 14#8 ((pre.length : Int) + 1) i [] = .ok none from rfl, except_ok_bind]
    simp only [BitVec.reduceEq, if_false, or_self, if_true]
    rw [rd1, except_ok_bind, he, except_ok_bind]
    dsimp only
    rw [if_pos hc]
  by_cases hp : s <+: (block.take len).drop i
  · have hbound : i + s.length ≤ len := by
      have := hp.length_le
      simp at this
      have := List.length_pos_iff.2 h0
      omega
    have hJr : ∀ n, single B block len (n + 1) ((pre.length : Int) + 4 + s.length) ((i : Int) + s.length) [] =
        .ok (⟨(pre.length : Int) + 4 + s.length + 2 + mid.length, (i : Int) + s.length⟩, []) := by
      intro n
      apply single_simple n (code := 15#8)
      · rw [← hB, show pre ++ 14#8 :: K :: 4#8 :: BitVec.ofNat 8 s.length :: (s ++ 15#8 :: J :: mid ++ opsOf is) =
          (pre ++ 14#8 :: K :: 4#8 :: BitVec.ofNat 8 s.length :: s) ++ 15#8 :: (J :: mid ++ opsOf is) by simp]
        exact rdI_append _ _ _ (by simp; omega)
      · have hrd : rdI B ((pre.length : Int) + 4 + s.length + 1) = .ok J := by
          rw [← hB, show pre ++ 14#8 :: K :: 4#8 :: BitVec.ofNat 8 s.length :: (s ++ 15#8 :: J :: mid ++ opsOf is) =
            (pre ++ 14#8 :: K :: 4#8 :: BitVec.ofNat 8 s.length :: (s ++ [15#8])) ++ J :: (mid ++ opsOf is) by simp]
          exact rdI_append _ _ _ (by simp; omega)
        have : simple B block len 15#8 ((pre.length : Int) + 4 + s.length + 1) ((i : Int) + s.length) [] =
          (do .ok (some (⟨(pre.length : Int) + 4 + s.length + 1 + 1 + (← rdI B ((pre.length : Int) + 4 + s.length + 1)).toInt, (i : Int) + s.length⟩, []))) := rfl
        rw [this, hrd, except_ok_bind, hJ]
        congr 4
    have hend := exec_run hl is (pre ++ 14#8 :: K :: 4#8 :: BitVec.ofNat 8 s.length :: (s ++ 15#8 :: J :: mid)) (i + s.length) [] r [] hbound hok hr (hrun hp)
    obtain ⟨N, hN⟩ := hend
    have eB : pre ++ 14#8 :: K :: 4#8 :: BitVec.ofNat 8 s.length :: (s ++ 15#8 :: J :: mid) ++ opsOf is = B := by rw [← hB]; simp
    rw [eB] at hN
    have elen : ((pre ++ 14#8 :: K :: 4#8 :: BitVec.ofNat 8 s.length :: (s ++ 15#8 :: J :: mid)).length : Int) = pre.length + 4 + s.length + 2 + mid.length := by
      simp; omega
    rw [elen] at hN
    have hrge := run_ge block len is (i + s.length) [] r [] (hrun hp)
    refine ⟨N + 5, fun n hn => ?_⟩
    obtain ⟨m, rfl⟩ : ∃ m, n = m + 5 := ⟨n - 5, by omega⟩
    obtain ⟨o, ho, hoe⟩ := hN (m + 1) (by omega)
    have h1 : exec B block len (m + 3) ((pre.length : Int) + 2) i [] = .ok (⟨o, r⟩, []) := by
      rw [exec, if_pos (by omega), hlit, if_pos hp, except_ok_bind]
      dsimp only
      rw [if_neg (by omega), exec, if_pos (by omega), hJr, except_ok_bind]
      dsimp only
      rw [if_neg (by omega)]
      exact ho
    refine ⟨o, ?_⟩
    rw [exec, if_pos (by omega), hbranch (m + 3) _ h1 hrle, except_ok_bind, if_pos hp]
    dsimp only
    by_cases hr1 : r = -1
    · rw [if_pos (Or.inr hr1)]
    · rw [if_neg (by omega), exec, if_neg]
      have := hoe (by omega)
      omega
  · refine ⟨4, fun n hn => ?_⟩
    obtain ⟨m, rfl⟩ : ∃ m, n = m + 4 := ⟨n - 4, by omega⟩
    have h1 : exec B block len (m + 2) ((pre.length : Int) + 2) i [] = .ok (noMatch ((pre.length : Int) + 4 + s.length), []) := by
      rw [exec, if_pos (by omega), hlit, if_neg hp, except_ok_bind]
      dsimp only [noMatch]
      rw [if_pos (Or.inr rfl)]
    refine ⟨(pre.length : Int) + 4 + s.length, ?_⟩
    rw [exec, if_pos (by omega), hbranch (m + 2) _ h1 (by simp [noMatch]), except_ok_bind, if_neg hp]
    dsimp only [noMatch]
    rw [if_pos (Or.inr rfl)]

/-- The compiler at a `|` behind the text `s`. -/
theorem parse_bar {pat t : List Byte} {len off n last begin_ level : Nat} {re : Re} {b : Option Nat} {pre x : List Byte} (hc : re.canRealloc = true)
    (hb : re.buf = pre ++ x) (hbeg : begin_ = pre.length) (hx : x ≠ []) (h : (pat.take len).drop off = 0x7c#8 :: t) :
    ∃ re', re'.buf = pre ++ 14#8 :: BitVec.ofNat 8 (x.length + 2) :: (x ++ [15#8, 0#8]) ∧ re'.canRealloc = true ∧ re'.captures = re.captures ∧
      parse pat len (n + 1) re last begin_ b off level = parse pat len n re' last begin_ (some (pre.length + 2 + x.length)) (off + 1) level := by
  obtain ⟨h1, h2, -⟩ := at_cons h
  obtain ⟨re1, e1, g1⟩ := emitOps_ok (vs := [0, 0, 15, 0]) hc (by simp)
  have hxl := List.length_pos_iff.2 hx
  have hbr : branch begin_ re = .ok () { re1 with buf := pre ++ 14#8 :: BitVec.ofNat 8 (x.length + 2) :: (x ++ [15#8, 0#8]) } := by
    rw [branch, if_neg (by rw [hb, hbeg]; simp; omega), e1]
    simp [hb, hbeg]
  refine ⟨{ re1 with buf := pre ++ 14#8 :: BitVec.ofNat 8 (x.length + 2) :: (x ++ [15#8, 0#8]) }, rfl, g1.can, by simpa using g1.caps, ?_⟩
  rw [parse, if_pos h1, h2, except_ok_bind]
  simp only [BitVec.reduceEq, if_false, if_true, or_self]
  rw [hbr]
  dsimp only
  congr 2
  simp
  omega

/-- `s|t` compiles: at the end of the first alternative nothing is skipped. -/
theorem compile_top {s t pat : List Byte} {plen : Nat} (hs : Ordinary s) (hs0 : s ≠ []) (hs127 : s.length ≤ 127) (ht : Ordinary t) (ht0 : t ≠ [])
    (ht127 : t.length ≤ 127) (hpl : plen ≤ pat.length) (hp : pat.take plen = s ++ 0x7c#8 :: t) :
    ∃ re, compile pat plen = .ok (.none, re, false) ∧ re.captures = 0 ∧
      re.buf = 14#8 :: BitVec.ofNat 8 (s.length + 4) :: 4#8 :: BitVec.ofNat 8 s.length :: (s ++ 15#8 :: 0#8 :: opsOf [.lit t]) := by
  have hlen : s.length + 1 + t.length = plen := by
    have := congrArg List.length hp
    simp at this
    omega
  have h0 : (pat.take plen).drop 0 = s ++ 0x7c#8 :: t := by simpa using hp
  have hst := List.length_pos_iff.2 hs0
  have htt := List.length_pos_iff.2 ht0
  obtain ⟨m, rfl⟩ : ∃ m, plen = m + 3 := ⟨plen - 3, by omega⟩
  obtain ⟨re1, g1, e1⟩ := parse_lit (n := m + 3) (last := 0) (begin_ := 0) (level := 0) (b := none) (off := 0)
    (re := { buf := [], cap := m + 3 + 128, canRealloc := true, captures := 0 }) hpl rfl hs hs0 (by omega) (t := 0x7c#8 :: t) (by intro d hd; simp at hd; subst hd; decide) h0
  have h1 := at_append h0
  obtain ⟨re2, b2, c2, k2, e2⟩ := parse_bar (n := m + 2) (last := 0) (begin_ := 0) (level := 0) (b := none) (pre := []) (x := 4 :: BitVec.ofNat 8 s.length :: s)
    g1.can (by simpa using g1.buf) rfl (by simp) h1
  have h2 : (pat.take (m + 3)).drop (0 + s.length + 1) = t ++ [] := by simpa using (at_cons h1).2.2
  obtain ⟨re3, g3, e3⟩ := parse_lit (n := m + 1) (last := 0) (begin_ := 0) (level := 0) (b := some (0 + 2 + (s.length + 2))) hpl c2 ht ht0 (by omega) (t := []) (by simp [Stops]) h2
  refine ⟨re3, ?_, ?_, ?_⟩
  · rw [compile, e1]
    dsimp only [List.length_nil]
    rw [e2]
    simp only [List.length_nil, List.length_cons] at e3 ⊢
    rw [e3, parse, if_neg (by omega), except_ok_bind]
    simp
    omega
  · have := g1.caps; have := g3.caps; simp at *; omega
  · rw [g3.buf, b2]
    simp [opsOf, Instr.ops]

/-- C85 is false in full: an alternative outside of a group means both alternatives one after the other.  `s|t` is found exactly in the texts that have
`s ++ t` in them; a text that is `s` is not one of them. -/
theorem C85_top_level_joins {s t pat block : List Byte} {plen len : Nat} (hs : Ordinary s) (hs0 : s ≠ []) (hs127 : s.length ≤ 127) (ht : Ordinary t) (ht0 : t ≠ [])
    (ht127 : t.length ≤ 127) (hpl : plen ≤ pat.length) (hp : pat.take plen = s ++ 0x7c#8 :: t) (hl : len ≤ block.length) :
    ∃ re, compile pat plen = .ok (.none, re, false) ∧ ∃ N,
      (s ++ t <:+: block.take len → ∀ n, N ≤ n → ∃ off, reMatch re block len n [] = .ok (true, [], off)) ∧
      (¬ s ++ t <:+: block.take len → ∀ n, N ≤ n → reMatch re block len n [] = .ok (false, [], none)) := by
  obtain ⟨re, hc, -, hb⟩ := compile_top hs hs0 hs127 ht ht0 ht127 hpl hp
  have key := search_exact (re := re) (block := block) (s := s ++ t) (len := len) (m := (s ++ t).length) (a := 14#8) hl (by simp [hs0]) (Nat.le_refl _) (by decide)
    (by rw [hb]; rfl) (by rw [hb]; simp) (by
      intro i hi
      have hi : i ≤ len := Nat.le_of_lt hi
      obtain ⟨N, hN⟩ := exec_branch (pre := []) (mid := []) (s := s) (K := BitVec.ofNat 8 (s.length + 4)) (J := 0#8) (is := [.lit t]) (block := block) (len := len) (i := i)
        (r := if t <+: (block.take len).drop (i + s.length) then (i + s.length + t.length : Nat) else -1) hl hi hs.text hs0 hs127 rfl
        (by simp [Instr.Ok]; exact ⟨ht0, ht.text, ht127⟩) (by simp [Instr.reads]) (by
          by_cases hh : t <+: (block.take len).drop (i + s.length)
          · rw [if_pos hh]
            have h1 := hh.length_le
            have h2 := List.length_pos_iff.2 ht0
            simp at h1
            omega
          · rw [if_neg hh]; omega) (by
          intro _
          simp only [run]
          by_cases hh : t <+: (block.take len).drop (i + s.length)
          · simp [hh]
          · simp [hh])
      refine ⟨N, fun n hn => ?_⟩
      obtain ⟨o, ho⟩ := hN n hn
      refine ⟨o, ?_⟩
      have eb : ([] : List Byte) ++ 14#8 :: BitVec.ofNat 8 (s.length + 4) :: 4#8 :: BitVec.ofNat 8 s.length :: (s ++ 15#8 :: 0#8 :: [] ++ opsOf [.lit t]) = re.buf := by
        rw [hb]; simp
      rw [eb] at ho
      have ho : exec re.buf block len n 0 i [] = _ := ho
      rw [ho]
      by_cases hh : s ++ t <+: (block.take len).drop i
      · have h2 := append_prefix.1 hh
        rw [List.drop_drop] at h2
        rw [if_pos hh, if_pos h2.1, if_pos h2.2]
        simp [Nat.add_assoc]
      · rw [if_neg hh]
        by_cases h1 : s <+: (block.take len).drop i
        · rw [if_pos h1, if_neg]
          intro h2
          exact hh (append_prefix.2 ⟨h1, by rw [List.drop_drop]; exact h2⟩)
        · rw [if_neg h1])
  by_cases hin : s ++ t <:+: block.take len
  · obtain ⟨N, i, -, h⟩ := key.1 hin
    exact ⟨re, hc, N, fun _ n hn => ⟨_, h n hn⟩, fun hn => absurd hin hn⟩
  · obtain ⟨N, h⟩ := key.2 hin
    exact ⟨re, hc, N, fun hn => absurd hn hin, fun _ n hn => h n hn⟩

/-- `(s|t)` compiles: behind the first alternative the second one is skipped. -/
theorem compile_group {s t pat : List Byte} {plen : Nat} (hs : Ordinary s) (hs0 : s ≠ []) (hs127 : s.length ≤ 127) (ht : Ordinary t) (ht0 : t ≠ [])
    (ht127 : t.length ≤ 127) (hpl : plen ≤ pat.length) (hp : pat.take plen = 0x28#8 :: (s ++ 0x7c#8 :: (t ++ [0x29#8]))) :
    ∃ re, compile pat plen = .ok (.none, re, false) ∧ re.captures = 1 ∧
      re.buf = [0#8, 0#8] ++ 14#8 :: BitVec.ofNat 8 (s.length + 4) :: 4#8 :: BitVec.ofNat 8 s.length ::
        (s ++ 15#8 :: BitVec.ofNat 8 (t.length + 2) :: opsOf [.lit t] ++ opsOf [.fin 0]) := by
  have hlen : s.length + t.length + 3 = plen := by
    have := congrArg List.length hp
    simp at this
    omega
  have h0 : (pat.take plen).drop 0 = 0x28#8 :: (s ++ 0x7c#8 :: (t ++ [0x29#8])) := by simpa using hp
  have hst := List.length_pos_iff.2 hs0
  have htt := List.length_pos_iff.2 ht0
  obtain ⟨m, rfl⟩ : ∃ m, plen = m + 4 := ⟨plen - 4, by omega⟩
  obtain ⟨h01, h02, h03⟩ := at_cons h0
  obtain ⟨re0, e0, g0⟩ := emitOps_ok (vs := [0, 0]) (re := { buf := [], cap := m + 4 + 128, canRealloc := true, captures := 1 }) rfl (by simp)
  have b0 : re0.buf = [0, 0] := by simpa using g0.buf
  obtain ⟨re1, g1, e1⟩ := parse_lit (n := m + 3) (last := 2) (begin_ := 2) (level := 1) (b := none) (off := 1) (re := re0) hpl g0.can hs hs0 (by omega)
    (t := 0x7c#8 :: (t ++ [0x29#8])) (by intro d hd; simp at hd; subst hd; decide) h03
  have h1 := at_append h03
  obtain ⟨re2, b2, c2, k2, e2⟩ := parse_bar (n := m + 2) (last := 2) (begin_ := 2) (level := 1) (b := none) (pre := [0, 0]) (x := 4 :: BitVec.ofNat 8 s.length :: s)
    g1.can (by rw [g1.buf, b0]) rfl (by simp) h1
  have h2 := (at_cons h1).2.2
  obtain ⟨re3, g3, e3⟩ := parse_lit (n := m + 1) (last := 2) (begin_ := 2) (level := 1) (b := some (2 + 2 + (s.length + 2))) hpl c2 ht ht0 (by omega) (t := [0x29#8])
    (by intro d hd; simp at hd; subst hd; decide) h2
  have h3 := at_append h2
  obtain ⟨h31, h32, h33⟩ := at_cons h3
  have hin : parse pat (m + 4) (m + 4) re0 2 2 none 1 1 = .ok (.ok (0 + 1 + s.length + 1 + t.length + 1) (closeBranch (some (2 + 2 + (s.length + 2))) re3)) := by
    rw [e1, b0]
    simp only [List.length_cons, List.length_nil] at e2 e3 ⊢
    rw [e2, e3]
    simp only [Nat.zero_add] at h31 h32 ⊢
    rw [parse, if_pos h31, h32, except_ok_bind]
    simp
  have b3 : (closeBranch (some (2 + 2 + (s.length + 2))) re3).buf =
      [0#8, 0#8] ++ 14#8 :: BitVec.ofNat 8 (s.length + 4) :: 4#8 :: BitVec.ofNat 8 s.length ::
        (s ++ 15#8 :: BitVec.ofNat 8 (t.length + 2) :: opsOf [.lit t]) := by
    have hb : re3.buf = ([0#8, 0#8, 14#8, BitVec.ofNat 8 (s.length + 4), 4#8, BitVec.ofNat 8 s.length] ++ s ++ [15#8]) ++ 0#8 :: opsOf [.lit t] := by
      rw [g3.buf, b2]
      simp [opsOf, Instr.ops]
    have e : 2 + 2 + (s.length + 2) + 1 = ([0#8, 0#8, 14#8, BitVec.ofNat 8 (s.length + 4), 4#8, BitVec.ofNat 8 s.length] ++ s ++ [15#8]).length := by simp; omega
    rw [closeBranch]
    dsimp only
    rw [e, hb, List.set_append_right _ _ (Nat.le_refl _), Nat.sub_self, List.set_cons_zero]
    have : (re3.buf.length - (2 + 2 + (s.length + 2) + 2)) = t.length + 2 := by
      rw [hb]; simp [opsOf, Instr.ops]; omega
    rw [hb] at this
    rw [this]
    simp
  have c3 : (closeBranch (some (2 + 2 + (s.length + 2))) re3).canRealloc = true := g3.can
  have k3 : (closeBranch (some (2 + 2 + (s.length + 2))) re3).captures = 1 := by
    have := g0.caps; have := g1.caps; have := g3.caps; simp [closeBranch] at *; omega
  obtain ⟨re4, e4, g4⟩ := emitOps_ok (vs := [1, 0]) c3 (by simp)
  refine ⟨re4, ?_, by rw [g4.caps, k3], ?_⟩
  · have htop : parse pat (m + 4) (m + 4 + 1) { buf := [], cap := m + 4 + 128, canRealloc := true, captures := 0 } 0 0 none 0 0 =
        .ok (.ok (0 + 1 + s.length + 1 + t.length + 1) re4) := by
      rw [parse, if_pos h01, h02, except_ok_bind]
      simp only [BitVec.reduceEq, if_false, if_true, or_self]
      rw [show emitOps [0, ((0 : Nat) : Int)] { buf := [], cap := m + 4 + 128, canRealloc := true, captures := 0 + 1 } = _ from e0]
      dsimp only
      rw [show re0.buf.length = 2 by rw [b0]; rfl, hin, except_ok_bind]
      dsimp only
      rw [if_neg (by omega), Nat.add_sub_cancel, h32, except_ok_bind, if_neg (by simp)]
      rw [show emitOps [1, ((0 : Nat) : Int)] (closeBranch (some (2 + 2 + (s.length + 2))) re3) = _ from e4]
      dsimp only
      rw [parse, if_neg (by omega)]
    rw [compile, htop, except_ok_bind]
    simp
    omega
  · rw [g4.buf, b3]
    simp [opsOf, Instr.ops]

/-- C85 is false in full: of the alternatives in a group only the first is ever tried.  `(s|t)` is found exactly in the texts that have `s` in them; a
text that is `t` need not be one of them. -/
theorem C85_group_first_only {s t pat block : List Byte} {plen len : Nat} (hs : Ordinary s) (hs0 : s ≠ []) (hs127 : s.length ≤ 127) (ht : Ordinary t) (ht0 : t ≠ [])
    (ht125 : t.length ≤ 125) (hpl : plen ≤ pat.length) (hp : pat.take plen = 0x28#8 :: (s ++ 0x7c#8 :: (t ++ [0x29#8]))) (hl : len ≤ block.length) :
    ∃ re, compile pat plen = .ok (.none, re, false) ∧ re.captures = 1 ∧ ∃ N,
      (s <:+: block.take len → ∀ n, N ≤ n → ∃ off, reMatch re block len n [] = .ok (true, [], off)) ∧
      (¬ s <:+: block.take len → ∀ n, N ≤ n → reMatch re block len n [] = .ok (false, [], none)) := by
  obtain ⟨re, hc, hk, hb⟩ := compile_group hs hs0 hs127 ht ht0 (by omega) hpl hp
  have key := search_exact (re := re) (block := block) (s := s) (len := len) (m := s.length) (a := 0#8) hl hs0 (Nat.le_refl _) (by decide)
    (by rw [hb]; rfl) (by rw [hb]; simp) (by
      intro i hi
      have hbound : s <+: (block.take len).drop i → i + s.length ≤ len := by
        intro hp
        have h1 := hp.length_le
        have h2 := List.length_pos_iff.2 hs0
        simp at h1
        omega
      have hi : i ≤ len := Nat.le_of_lt hi
      obtain ⟨N, hN⟩ := exec_branch (pre := [0#8, 0#8]) (mid := opsOf [.lit t]) (s := s) (K := BitVec.ofNat 8 (s.length + 4)) (J := BitVec.ofNat 8 (t.length + 2))
        (is := [.fin 0]) (block := block) (len := len) (i := i)
        (r := if s <+: (block.take len).drop i then (i + s.length : Nat) else -1) hl hi hs.text hs0 hs127
        (by
          rw [BitVec.toInt_eq_toNat_cond]
          simp [opsOf, Instr.ops]
          omega)
        (by simp [Instr.Ok]) (by simp [Instr.reads]) (by
          by_cases hh : s <+: (block.take len).drop i
          · rw [if_pos hh]
            have := hbound hh
            omega
          · rw [if_neg hh]; omega) (by
          intro hh
          simp [run, endCapture, hh])
      refine ⟨N + 2, fun n hn => ?_⟩
      obtain ⟨m, rfl⟩ : ∃ m, n = m + 2 := ⟨n - 2, by omega⟩
      obtain ⟨o, ho⟩ := hN (m + 1) (by omega)
      have eb : [0#8, 0#8] ++ 14#8 :: BitVec.ofNat 8 (s.length + 4) :: 4#8 :: BitVec.ofNat 8 s.length ::
          (s ++ 15#8 :: BitVec.ofNat 8 (t.length + 2) :: opsOf [.lit t] ++ opsOf [.fin 0]) = re.buf := hb.symm
      rw [eb] at ho
      have h1 : single re.buf block len (m + 1) 0 i [] = .ok (⟨2, i⟩, []) := by
        apply single_simple (code := 0#8)
        · rw [hb]; rfl
        · rw [show simple re.buf block len 0#8 ((0 : Int) + 1) i [] = (do
            .ok (some (⟨(0 : Int) + 1 + 1, i⟩, beginCapture [] (← rdI re.buf ((0 : Int) + 1)) i))) from rfl, hb]
          rfl
      refine ⟨o, ?_⟩
      rw [exec, if_pos (by rw [hb]; simp; omega), h1, except_ok_bind]
      dsimp only
      rw [if_neg (by omega)]
      rw [show exec re.buf block len (m + 1) 2 i [] = _ from ho]
      by_cases hh : s <+: (block.take len).drop i
      · simp [hh]
      · simp [hh])
  by_cases hin : s <:+: block.take len
  · obtain ⟨N, i, -, h⟩ := key.1 hin
    exact ⟨re, hc, hk, N, fun _ n hn => ⟨_, h n hn⟩, fun hn => absurd hin hn⟩
  · obtain ⟨N, h⟩ := key.2 hin
    exact ⟨re, hc, hk, N, fun hn => absurd hn hin, fun _ n hn => h n hn⟩

/-- C85, the part that holds: neither spelling is ever found in a text that has none of the alternatives in it, and both are found in a text that has the
one behind the other.  Missing, and false by `C85_top_level_joins` and `C85_group_first_only`: that one alternative is enough. -/
theorem C85_alternatives_partial {s t pat block : List Byte} {plen len : Nat} (hs : Ordinary s) (hs0 : s ≠ []) (hs127 : s.length ≤ 127) (ht : Ordinary t) (ht0 : t ≠ [])
    (ht125 : t.length ≤ 125) (hpl : plen ≤ pat.length) (hl : len ≤ block.length)
    (hp : pat.take plen = s ++ 0x7c#8 :: t ∨ pat.take plen = 0x28#8 :: (s ++ 0x7c#8 :: (t ++ [0x29#8]))) :
    ∃ re N, compile pat plen = .ok (.none, re, false) ∧
      (s ++ t <:+: block.take len → ∀ n, N ≤ n → ∃ off, reMatch re block len n [] = .ok (true, [], off)) ∧
      (¬ s <:+: block.take len → ¬ t <:+: block.take len → ∀ n, N ≤ n → reMatch re block len n [] = .ok (false, [], none)) := by
  rcases hp with hp | hp
  · obtain ⟨re, hc, N, h1, h2⟩ := C85_top_level_joins hs hs0 hs127 ht ht0 (by omega) hpl hp hl
    refine ⟨re, N, hc, h1, fun hn _ => h2 (fun h => hn ?_)⟩
    exact List.IsInfix.trans (List.prefix_append s t).isInfix h
  · obtain ⟨re, hc, -, N, h1, h2⟩ := C85_group_first_only hs hs0 hs127 ht ht0 ht125 hpl hp hl
    exact ⟨re, N, hc, fun h => h1 (List.IsInfix.trans (List.prefix_append s t).isInfix h), fun hn _ => h2 hn⟩

/-- `ab|cd`, in the text `ab`, and in the text `xabcd`. -/
example : (∃ re, compile [0x61#8, 0x62#8, 0x7c#8, 0x63#8, 0x64#8] 5 = .ok (.none, re, false) ∧ ∃ N, ∀ n, N ≤ n → reMatch re [0x61#8, 0x62#8] 2 n [] = .ok (false, [], none)) ∧
    ∃ re, compile [0x61#8, 0x62#8, 0x7c#8, 0x63#8, 0x64#8] 5 = .ok (.none, re, false) ∧
      ∃ N, ∀ n, N ≤ n → ∃ off, reMatch re [0x78#8, 0x61#8, 0x62#8, 0x63#8, 0x64#8] 5 n [] = .ok (true, [], off) := by
  constructor
  · obtain ⟨re, h1, N, -, h2⟩ := C85_top_level_joins (s := [0x61#8, 0x62#8]) (t := [0x63#8, 0x64#8]) (block := [0x61#8, 0x62#8]) (len := 2)
      (pat := [0x61#8, 0x62#8, 0x7c#8, 0x63#8, 0x64#8]) (plen := 5) (by unfold Ordinary; decide) (by simp) (by simp) (by unfold Ordinary; decide) (by simp) (by simp) (by simp) rfl (by simp)
    exact ⟨re, h1, N, h2 (by decide)⟩
  · obtain ⟨re, h1, N, h2, -⟩ := C85_top_level_joins (s := [0x61#8, 0x62#8]) (t := [0x63#8, 0x64#8]) (block := [0x78#8, 0x61#8, 0x62#8, 0x63#8, 0x64#8]) (len := 5)
      (pat := [0x61#8, 0x62#8, 0x7c#8, 0x63#8, 0x64#8]) (plen := 5) (by unfold Ordinary; decide) (by simp) (by simp) (by unfold Ordinary; decide) (by simp) (by simp) (by simp) rfl (by simp)
    exact ⟨re, h1, N, h2 (by decide)⟩

/-- `(ab|cd)` in the text `cd`. -/
example : ∃ re, compile [0x28#8, 0x61#8, 0x62#8, 0x7c#8, 0x63#8, 0x64#8, 0x29#8] 7 = .ok (.none, re, false) ∧ re.captures = 1 ∧
    ∃ N, ∀ n, N ≤ n → reMatch re [0x63#8, 0x64#8] 2 n [] = .ok (false, [], none) := by
  obtain ⟨re, h1, h2, N, -, h3⟩ := C85_group_first_only (s := [0x61#8, 0x62#8]) (t := [0x63#8, 0x64#8]) (block := [0x63#8, 0x64#8]) (len := 2)
    (pat := [0x28#8, 0x61#8, 0x62#8, 0x7c#8, 0x63#8, 0x64#8, 0x29#8]) (plen := 7) (by unfold Ordinary; decide) (by simp) (by simp) (by unfold Ordinary; decide) (by simp) (by simp) (by simp) rfl (by simp)
  exact ⟨re, h1, h2, N, h3 (by decide)⟩

/-! ## Property theorems: escapes -/

/-- A hexadecimal digit as C has it. -/
def HexChar (e : Byte) : Prop := (48 ≤ e.toNat ∧ e.toNat ≤ 57) ∨ (65 ≤ e.toNat ∧ e.toNat ≤ 70) ∨ (97 ≤ e.toNat ∧ e.toNat ≤ 102)

theorem hexChar_iff (e : Byte) : Chars.isHexDigit e = true ↔ HexChar e := by
  simp only [Chars.isHexDigit, Chars.isDigit, HexChar, Bool.or_eq_true, Bool.and_eq_true, decide_eq_true_eq, BitVec.le_def, ge_iff_le, BitVec.toNat_ofNat]
  omega

theorem least {P : Nat → Prop} (i : Nat) (h : P i) : ∃ k, P k ∧ ∀ m, m < k → ¬ P m := by
  induction i using Nat.strongRecOn with
  | ind i ih =>
    by_cases hm : ∃ m, m < i ∧ P m
    · obtain ⟨m, hm, hp⟩ := hm
      exact ih m hm hp
    · exact ⟨i, h, fun m hmi hp => hm ⟨m, hmi, hp⟩⟩

/-- C86, the part that holds: `\e` for a character `e` that is no hexadecimal digit stands for one character of the class `e` names. -/
theorem C86_escape_partial {e : Byte} {pat block : List Byte} {plen len : Nat} (he0 : e ≠ 0) (he : ¬ HexChar e) (hpl : plen ≤ pat.length)
    (hp : pat.take plen = [0x5c#8, e]) (hl : len < block.length) :
    ∃ re, compile pat plen = .ok (.none, re, false) ∧ ∀ caps,
      ((∃ ch ∈ block.take len, escHas e ch = true) → ∃ N, ∀ n, N ≤ n → ∃ off, reMatch re block len n caps = .ok (true, caps, off)) ∧
      ((∀ ch ∈ block.take len, escHas e ch = false) → ∃ N, ∀ n, N ≤ n → reMatch re block len n caps = .ok (false, caps, none)) := by
  have hx : Chars.isHexDigit e = false := by
    cases h : Chars.isHexDigit e with
    | false => rfl
    | true => exact absurd ((hexChar_iff e).1 h) he
  obtain ⟨re, h1, -, h2, h3⟩ := C82_straight_patterns (p := .one (.esc e) .nil) (block := block) (len := len) (by simp) ⟨by simp, ⟨he0, hx⟩, trivial⟩ rfl (by simp [Pat.groups]) hpl
    (by simpa [Pat.spell, Cls.spell] using hp) hl
  have heq : ∀ caps' caps : List Cap, (∀ m, (Pat.one (.esc e) .nil).groups ≤ m → caps'[m]? = caps[m]?) → caps' = caps :=
    fun caps' caps h => List.ext_getElem? (fun m => h m (by simp [Pat.groups]))
  refine ⟨re, h1, fun caps => ⟨?_, ?_⟩⟩
  · rintro ⟨ch, hch, hhas⟩
    obtain ⟨i, hi, hget⟩ := List.mem_iff_getElem.1 hch
    obtain ⟨k, ⟨c', hk, hk2⟩, hleast⟩ := least (P := fun k => ∃ c', (block.take len)[k]? = some c' ∧ escHas e c' = true) i
      ⟨ch, by rw [List.getElem?_eq_getElem hi, hget], hhas⟩
    have hklen : k < (block.take len).length := by
      obtain ⟨h, -⟩ := List.getElem?_eq_some_iff.1 hk
      exact h
    obtain ⟨caps', -, -, h4, N, h5⟩ := h2 k (k + 1) [] (by simp [Pat.Starts] at hklen ⊢; omega) (.one hk hk2 .nil) (by
      intro m hm j cs hh
      cases hh with
      | one hg hc _ => exact hleast m hm ⟨_, hg, hc⟩) caps
    rw [heq caps' caps h4] at h5
    exact ⟨N, fun n hn => ⟨_, h5 n hn⟩⟩
  · intro hall
    obtain ⟨caps', -, h4, N, h5⟩ := h3 (by
      intro i hi j cs hh
      cases hh with
      | one hg hc _ =>
        have := hall _ (List.mem_of_getElem? hg)
        simp only [Cls.has] at hc
        rw [this] at hc
        exact absurd hc (by decide)) caps
    rw [heq caps' caps h4] at h5
    exact ⟨N, h5⟩

/-- C86 is false in full: `\e` followed by `x`, for a hexadecimal digit `e`, is one character, whatever `e` names and whatever `x` is.  It is found
exactly in the texts with the character whose number has `e` and `x` as its digits (by the code's reckoning of them). -/
theorem C86_hex_swallows {e x : Byte} {pat block : List Byte} {plen len : Nat} (he : HexChar e) (hpl : plen ≤ pat.length)
    (hp : pat.take plen = [0x5c#8, e, x]) (hl : len ≤ block.length) (h0 : hexByte e x ≠ 0) :
    ∃ re, compile pat plen = .ok (.none, re, false) ∧ ∃ N,
      (hexByte e x ∈ block.take len → ∀ n, N ≤ n → ∃ off, reMatch re block len n [] = .ok (true, [], off)) ∧
      (hexByte e x ∉ block.take len → ∀ n, N ≤ n → reMatch re block len n [] = .ok (false, [], none)) := by
  have hlen : 3 = plen := by
    have := congrArg List.length hp
    simp at this
    omega
  have hp0 : (pat.take plen).drop 0 = [0x5c#8, e, x] := by simpa using hp
  obtain ⟨h1, h2, h3⟩ := at_cons hp0
  obtain ⟨h4, h5, h6⟩ := at_cons h3
  obtain ⟨h7, h8, -⟩ := at_cons h6
  subst hlen
  obtain ⟨re, e1, g⟩ := emitOps_ok (vs := [5, ((hexByte e x).toNat : Int)]) (re := { buf := [], cap := 3 + 128, canRealloc := true, captures := 0 }) rfl (by
    intro v hv
    simp only [List.mem_cons, List.not_mem_nil, or_false] at hv
    rcases hv with rfl | rfl
    · decide
    · have := (hexByte e x).isLt; omega)
  have hb : re.buf = [5#8, hexByte e x] := by simpa using g.buf
  have hesc : escape pat 3 1 { buf := [], cap := 3 + 128, canRealloc := true, captures := 0 } = .ok (.ok 3 re) := by
    rw [escape, if_pos (by omega), h5, except_ok_bind, if_pos ⟨by omega, (hexChar_iff e).2 he⟩, h8, except_ok_bind, e1]
  have hc : compile pat 3 = .ok (.none, re, false) := by
    rw [compile, parse, if_pos h1, h2, except_ok_bind]
    simp only [BitVec.reduceEq, if_false, if_true, or_self]
    rw [hesc, except_ok_bind]
    dsimp only
    rw [parse, if_neg (by omega), except_ok_bind]
    simp
  have hmem : hexByte e x ∈ block.take len ↔ [hexByte e x] <:+: block.take len := by
    constructor
    · intro h
      obtain ⟨a, b, hab⟩ := List.append_of_mem h
      exact ⟨a, b, by rw [hab]; simp⟩
    · rintro ⟨a, b, hab⟩
      rw [← hab]; simp
  have key := search_exact (re := re) (block := block) (s := [hexByte e x]) (len := len) (m := 1) (a := 5#8) hl (by simp) (by simp) (by decide)
    (by rw [hb]; rfl) (by rw [hb]; simp) (by
      intro i hi
      refine ⟨3, fun n hn => ⟨2, ?_⟩⟩
      obtain ⟨m, rfl⟩ : ∃ m, n = m + 3 := ⟨n - 3, by omega⟩
      have hib : i < block.length := by omega
      have hrd : rdI block i = .ok block[i] := by
        rw [rdI, if_neg (by omega)]
        simp [rd_ok hib]
      have hpre : [hexByte e x] <+: (block.take len).drop i ↔ hexByte e x = block[i] := by
        rw [List.drop_eq_getElem_cons (by simp; omega)]
        simp
      have hs : single re.buf block len (m + 2) 0 i [] = .ok (if hexByte e x = block[i] then ⟨2, i + 1⟩ else noMatch 2, []) := by
        apply single_simple (code := 5#8)
        · rw [hb]; rfl
        · rw [show simple re.buf block len 5#8 ((0 : Int) + 1) i [] = _ from simple_meta _ _ _ _ _ _, metaMatch, hb]
          rw [show rdI [5#8, hexByte e x] ((0 : Int) + 1) = .ok (hexByte e x) from rfl, except_ok_bind, hrd, except_ok_bind, if_neg h0]
          by_cases hh : hexByte e x = block[i]
          · rw [if_pos hh, if_pos hh]; rfl
          · rw [if_neg hh, if_neg hh]; rfl
      rw [exec, if_pos (by rw [hb]; simp), hs, except_ok_bind]
      by_cases hh : hexByte e x = block[i]
      · rw [if_pos hh, if_pos (hpre.2 hh)]
        dsimp only
        rw [if_neg (by omega), exec, if_neg (by rw [hb]; simp)]
        simp
      · rw [if_neg hh, if_neg (fun h => hh (hpre.1 h))]
        dsimp only [noMatch]
        rw [if_pos (Or.inr rfl)])
  rw [hmem]
  by_cases hin : [hexByte e x] <:+: block.take len
  · obtain ⟨N, i, -, h⟩ := key.1 hin
    exact ⟨re, hc, N, fun _ n hn => ⟨_, h n hn⟩, fun hn => absurd hin hn⟩
  · obtain ⟨N, h⟩ := key.2 hin
    exact ⟨re, hc, N, fun hn => absurd hn hin, fun _ n hn => h n hn⟩

/-- `\dx` is not a digit and an `x`. -/
example : ∃ re, compile [0x5c#8, 0x64#8, 0x78#8] 3 = .ok (.none, re, false) ∧ ∃ N, ∀ n, N ≤ n → reMatch re [0x37#8, 0x78#8] 2 n [] = .ok (false, [], none) := by
  obtain ⟨re, h1, N, -, h2⟩ := C86_hex_swallows (e := 0x64#8) (x := 0x78#8) (pat := [0x5c#8, 0x64#8, 0x78#8]) (plen := 3) (block := [0x37#8, 0x78#8]) (len := 2)
    (Or.inr (Or.inr (by decide))) (by simp) rfl (by simp) (by decide)
  exact ⟨re, h1, N, h2 (by decide)⟩

/-- `\s` finds the blank of `a b`. -/
example (caps : List Cap) : ∃ re, compile [0x5c#8, 0x73#8] 2 = .ok (.none, re, false) ∧ ∃ N, ∀ n, N ≤ n → ∃ off, reMatch re [0x61#8, 0x20#8, 0x62#8, 0#8] 3 n caps = .ok (true, caps, off) := by
  obtain ⟨re, h1, h2⟩ := C86_escape_partial (e := 0x73#8) (pat := [0x5c#8, 0x73#8]) (plen := 2) (block := [0x61#8, 0x20#8, 0x62#8, 0#8]) (len := 3)
    (by decide) (by unfold HexChar; decide) (by simp) rfl (by simp)
  exact ⟨re, h1, (h2 caps).1 ⟨0x20#8, by decide, by decide⟩⟩

end Zpl.Regex
